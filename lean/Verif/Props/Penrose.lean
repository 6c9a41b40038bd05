import Verif.Props.MPInv
import Verif.Props.Spec
import Mathlib.LinearAlgebra.Matrix.Rank
import Mathlib.Data.Finset.Powerset

/-! # C117: Penrose's iteration for the Moore–Penrose inverse -/

set_option linter.unusedSectionVars false

namespace Zm.LE
open Zm Misc Finset
variable {K : Type*} [Field K] [LinearOrder K] [IsStrictOrderedRing K]

/-! ## The sequence of matrices -/

/-- The matrices `c` of the iteration. -/
def penC {n : Nat} (B : Matrix (Fin n) (Fin n) K) : Nat → Matrix (Fin n) (Fin n) K
  | 0 => 1
  | k+1 => (Matrix.trace (penC B k * B) / ((k + 1 : Nat) : K)) • 1 - penC B k * B

theorem penC_comm {n : Nat} (B : Matrix (Fin n) (Fin n) K) (k : Nat) : penC B k * B = B * penC B k := by
  induction k with
  | zero => simp [penC]
  | succ k ih => rw [penC, Matrix.sub_mul, Matrix.mul_sub, Matrix.smul_mul, Matrix.mul_smul, Matrix.one_mul, Matrix.mul_one, ← Matrix.mul_assoc, ← ih]

theorem penC_symm {n : Nat} (B : Matrix (Fin n) (Fin n) K) (hB : B.transpose = B) (k : Nat) : (penC B k).transpose = penC B k := by
  induction k with
  | zero => simp [penC]
  | succ k ih => rw [penC, Matrix.transpose_sub, Matrix.transpose_smul, Matrix.transpose_one, Matrix.transpose_mul, ih, hB, penC_comm]

theorem trace_toR (n : Nat) (m : Nat → Nat → K) : trace n m = Matrix.trace (toR n n m) := by
  unfold trace
  rw [forUp_add 0 n (fun i => m i i) 0 (Nat.zero_le _), zero_add, ← range_eq_Ico, sum_range]
  rfl

/-- What the loop keeps. -/
structure PenOk (n : Nat) (b : Nat → Nat → K) (st : PenS K) : Prop where
  pos : 1 ≤ st.rank
  c2 : toR n n st.c2 = penC (toR n n b) (st.rank - 1)
  cb : toR n n st.cb = penC (toR n n b) (st.rank - 1) * toR n n b
  c : 2 ≤ st.rank → toR n n st.c = penC (toR n n b) (st.rank - 2)
  tr : 2 ≤ st.rank → st.trace = Matrix.trace (penC (toR n n b) (st.rank - 2) * toR n n b)
  past : ∀ j, j < st.rank - 1 → penC (toR n n b) j * toR n n b ≠ 0

theorem penStep_ok (n : Nat) (b : Nat → Nat → K) (st : PenS K) (h : PenOk n b st) (hne : toR n n st.cb ≠ 0) : PenOk n b (penStep n b st) := by
  obtain ⟨k, hk⟩ : ∃ k, st.rank = k + 1 := ⟨st.rank - 1, by have := h.pos; omega⟩
  have h1 := h.c2
  have h2 := h.cb
  rw [hk, Nat.add_sub_cancel] at h1 h2
  have e : toR n n (fun i j => (if i = j then trace n st.cb / (st.rank : K) else 0) - st.cb i j) = penC (toR n n b) (k + 1) := by
    rw [penC, ← h2, ← trace_toR, ← hk]
    ext i j
    rw [Matrix.sub_apply, Matrix.smul_apply, Matrix.one_apply, toR_apply, toR_apply, smul_eq_mul, mul_ite, mul_one, mul_zero]
    congr 1
    exact if_congr Fin.ext_iff.symm rfl rfl
  have h3 := h.past
  rw [hk, Nat.add_sub_cancel] at h3
  refine ⟨by simp [penStep], ?_, ?_, ?_, ?_, ?_⟩ <;> simp only [penStep, hk]
  · rw [← hk, e, hk]; rfl
  · rw [toR_mulMM, ← hk, e, hk]; rfl
  · intro _; exact h1
  · intro _; rw [trace_toR, h2]; rfl
  · intro j hj
    by_cases g : j < k
    · exact h3 j g
    · have : j = k := by omega
      rw [this, ← h2]; exact hne

theorem penLoop_ok (n : Nat) (b : Nat → Nat → K) (k : Nat) : ∀ st st' : PenS K, PenOk n b st → penLoop 0 n b k st = .ok st' → PenOk n b st' ∧ toR n n st'.cb = 0 := by
  induction k with
  | zero =>
    intro st st' h e
    unfold penLoop at e
    by_cases g : matIsTol 0 n n st.cb = true
    · rw [if_pos g] at e; cases e; exact ⟨h, (matIsTol_zero n n _).1 g⟩
    · rw [if_neg g] at e; cases e
  | succ k ih =>
    intro st st' h e
    unfold penLoop at e
    by_cases g : matIsTol 0 n n st.cb = true
    · rw [if_pos g] at e; cases e; exact ⟨h, (matIsTol_zero n n _).1 g⟩
    · rw [if_neg g] at e
      exact ih _ _ (penStep_ok n b st h fun h0 => g ((matIsTol_zero n n _).2 h0)) e

theorem pen_init (n : Nat) (b : Nat → Nat → K) : PenOk n b ⟨fun _ _ => 0, fun i j => if i = j then 1 else 0, b, 0, 1⟩ :=
  ⟨le_refl _, toR_one n, by simp [penC], fun h => by dsimp only at h; omega, fun h => by dsimp only at h; omega, fun j hj => by dsimp only at hj; omega⟩

theorem gram_zero {r c : Nat} (Y : Matrix (Fin r) (Fin c) K) (h : Y.transpose * Y = 0) : Y = 0 := by
  ext i j
  have h1 := congrFun (congrFun h j) j
  rw [Matrix.mul_apply, Matrix.zero_apply] at h1
  exact mul_self_eq_zero.1 ((sum_eq_zero_iff_of_nonneg fun k _ => mul_self_nonneg _).1 h1 i (mem_univ _))

/-- The matrix at the end of the loop. -/
theorem penrose_core {r n : Nat} (M : Matrix (Fin r) (Fin n) K) (k : Nat) (h1 : penC (M.transpose * M) k * (M.transpose * M) ≠ 0) (h2 : penC (M.transpose * M) (k+1) * (M.transpose * M) = 0) :
    Matrix.trace (penC (M.transpose * M) k * (M.transpose * M)) ≠ 0 ∧
    IsPinv M ((((k + 1 : Nat) : K) / Matrix.trace (penC (M.transpose * M) k * (M.transpose * M))) • penC (M.transpose * M) k * M.transpose) := by
  have hB : (M.transpose * M).transpose = M.transpose * M := by rw [Matrix.transpose_mul, Matrix.transpose_transpose]
  have hk : ((k + 1 : Nat) : K) ≠ 0 := Nat.cast_ne_zero.2 (by omega)
  have hc := penC_comm (M.transpose * M) k
  have hs := penC_symm (M.transpose * M) hB k
  rw [penC, Matrix.sub_mul, Matrix.smul_mul, Matrix.one_mul, sub_eq_zero] at h2
  generalize penC (M.transpose * M) k = C at h1 h2 hc hs ⊢
  generalize ht : Matrix.trace (C * (M.transpose * M)) = t at h2 ⊢
  have htne : t ≠ 0 := by
    intro h0
    rw [h0, zero_div, zero_smul] at h2
    apply h1
    apply symm_sq_zero
    · rw [Matrix.transpose_mul, hB, hs, hc]
    · calc C * (M.transpose * M) * (C * (M.transpose * M)) = C * ((M.transpose * M) * C) * (M.transpose * M) := by simp only [Matrix.mul_assoc]
        _ = C * (C * (M.transpose * M) * (M.transpose * M)) := by rw [← hc]; simp only [Matrix.mul_assoc]
        _ = 0 := by rw [← h2, Matrix.mul_zero]
  refine ⟨htne, ?_⟩
  generalize hP : (((k + 1 : Nat) : K) / t) • C = G at *
  have hGs : G.transpose = G := by rw [← hP, Matrix.transpose_smul, hs]
  have hGB : G * (M.transpose * M) = M.transpose * M * G := by rw [← hP, Matrix.smul_mul, Matrix.mul_smul, hc]
  have hGBB : G * (M.transpose * M) * (M.transpose * M) = M.transpose * M := by
    rw [← hP, Matrix.smul_mul, Matrix.smul_mul, ← h2, smul_smul]
    rw [show ((k + 1 : Nat) : K) / t * (t / ((k + 1 : Nat) : K)) = 1 by field_simp, one_smul]
  have hMP : M * (G * (M.transpose * M)) = M := by
    rw [← sub_eq_zero]
    apply gram_zero
    have e1 : M.transpose * (M * (G * (M.transpose * M)) - M) = 0 := by
      rw [Matrix.mul_sub, ← Matrix.mul_assoc, ← Matrix.mul_assoc, ← hGB, hGBB, sub_self]
    have e2 : (M * (G * (M.transpose * M)) - M).transpose = (G * (M.transpose * M) - 1).transpose * M.transpose := by
      rw [← Matrix.transpose_mul, Matrix.mul_sub, Matrix.mul_one]
    rw [e2, Matrix.mul_assoc, e1, Matrix.mul_zero]
  have hPs : (G * (M.transpose * M)).transpose = G * (M.transpose * M) := by rw [Matrix.transpose_mul, hB, hGs, hGB]
  refine ⟨?_, ?_, ?_, ?_⟩
  · calc M * (G * M.transpose) * M = M * (G * (M.transpose * M)) := by simp only [Matrix.mul_assoc]
      _ = M := hMP
  · have e : G * (M.transpose * M) * M.transpose = M.transpose := by
      have := congrArg Matrix.transpose hMP
      rw [Matrix.transpose_mul, hPs] at this
      exact this
    calc G * M.transpose * M * (G * M.transpose) = G * ((M.transpose * M * G) * M.transpose) := by simp only [Matrix.mul_assoc]
      _ = G * M.transpose := by rw [← hGB, e]
  · rw [Matrix.transpose_mul, Matrix.transpose_mul, Matrix.transpose_transpose, hGs, Matrix.mul_assoc]
  · rw [Matrix.mul_assoc, hPs]

theorem penC_zero {n : Nat} (k : Nat) : penC (0 : Matrix (Fin n) (Fin n) K) k * 0 = 0 := by simp

/-- C117, `_zMatMPInvPenrose` when the loop has ended: the four equations; no division by zero unless the matrix is zero. -/
theorem penrose_spec (fuel rows cols : Nat) (m : Nat → Nat → K) :
    (∀ mp rank, penrose 0 fuel rows cols m = .ok (mp, rank) → IsPinv (toR rows cols m) (toR cols rows mp)) ∧
    (∀ st, toR rows cols m ≠ 0 → penLoop 0 cols (mulTMM rows m m) fuel ⟨fun _ _ => 0, fun i j => if i = j then 1 else 0, mulTMM rows m m, 0, 1⟩ = .ok st →
      ∃ mp, penrose 0 fuel rows cols m = .ok (mp, st.rank - 1)) := by
  have key : ∀ st, penLoop 0 cols (mulTMM rows m m) fuel ⟨fun _ _ => 0, fun i j => if i = j then 1 else 0, mulTMM rows m m, 0, 1⟩ = .ok st →
      (st.rank = 1 → st.trace = 0 ∧ toR rows cols m = 0) ∧ (st.rank ≠ 1 → st.trace ≠ 0 ∧ IsPinv (toR rows cols m) (toR cols rows (mulMMT cols (fun i j => st.c i j * ((st.rank - 1 : Nat) / st.trace)) m))) := by
    intro st e
    constructor
    · intro h1
      have hl := penLoop_ok cols (mulTMM rows m m) fuel _ st (pen_init _ _) e
      constructor
      · cases fuel with
        | zero =>
          unfold penLoop at e
          by_cases g : matIsTol 0 cols cols (mulTMM rows m m) = true
          · rw [if_pos g] at e; cases e; rfl
          · rw [if_neg g] at e; cases e
        | succ k =>
          unfold penLoop at e
          by_cases g : matIsTol 0 cols cols (mulTMM rows m m) = true
          · rw [if_pos g] at e; cases e; rfl
          · exfalso
            apply g
            rw [matIsTol_zero]
            have := hl.1.cb
            rw [h1, hl.2] at this
            simpa [penC] using this.symm
      · apply gram_zero
        rw [← toR_mulTMM]
        have := hl.1.cb
        rw [h1, hl.2] at this
        simpa [penC] using this.symm
    · intro h1
      obtain ⟨h, h0⟩ := penLoop_ok cols (mulTMM rows m m) fuel _ st (pen_init _ _) e
      obtain ⟨k, hk⟩ : ∃ k, st.rank = k + 2 := ⟨st.rank - 2, by have := h.pos; omega⟩
      have h2 := h.c (by omega)
      have h3 := h.tr (by omega)
      have h4 := h.past k (by omega)
      have h5 := h.cb
      rw [hk] at h2 h3 h5
      rw [h0, toR_mulTMM] at h5
      simp only [Nat.add_sub_cancel] at h2 h3
      rw [toR_mulTMM] at h2 h3 h4
      obtain ⟨g1, g2⟩ := penrose_core (toR rows cols m) k h4 h5.symm
      rw [h3]
      refine ⟨g1, ?_⟩
      rw [toR_mulMMT]
      have e2 : toR cols cols (fun i j => st.c i j * ((st.rank - 1 : Nat) / Matrix.trace (penC ((toR rows cols m).transpose * toR rows cols m) k * ((toR rows cols m).transpose * toR rows cols m)))) =
          (((k + 1 : Nat) : K) / Matrix.trace (penC ((toR rows cols m).transpose * toR rows cols m) k * ((toR rows cols m).transpose * toR rows cols m))) • penC ((toR rows cols m).transpose * toR rows cols m) k := by
        rw [← h2]
        ext i j
        rw [Matrix.smul_apply, toR_apply, toR_apply, smul_eq_mul, mul_comm, hk]
        rfl
      rw [e2]
      exact g2
  constructor
  · intro mp rank h
    unfold penrose at h
    dsimp only at h
    match e : penLoop 0 cols (mulTMM rows m m) fuel ⟨fun _ _ => 0, fun i j => if i = j then 1 else 0, mulTMM rows m m, 0, 1⟩ with
    | .ok st =>
      rw [e] at h
      dsimp only [Res.bind] at h
      by_cases g : st.trace = 0
      · rw [if_pos g] at h; cases h
      · rw [if_neg g] at h
        cases h
        exact ((key st e).2 fun h1 => g ((key st e).1 h1).1).2
    | .fail => rw [e] at h; cases h
    | .ub => rw [e] at h; cases h
  · intro st hm e
    unfold penrose
    dsimp only
    rw [e]
    dsimp only [Res.bind]
    rw [if_neg ((key st e).2 fun h1 => hm ((key st e).1 h1).2).1]
    exact ⟨_, rfl⟩

/-! ## The length of the loop -/

/-- The elementary symmetric function of degree `k` of the numbers `l` with indices in `S`. -/
def esym {n : Nat} (l : Fin n → ℝ) (k : Nat) (S : Finset (Fin n)) : ℝ := ∑ T ∈ powersetCard k S, ∏ i ∈ T, l i

theorem esym_split {n : Nat} (l : Fin n → ℝ) (k : Nat) (i : Fin n) : esym l (k+1) univ = esym l (k+1) (univ.erase i) + l i * esym l k (univ.erase i) := by
  unfold esym
  have h : (univ : Finset (Fin n)) = insert i (univ.erase i) := (insert_erase (mem_univ i)).symm
  conv_lhs => rw [h, powersetCard_succ_insert (notMem_erase i _)]
  rw [sum_union, sum_image]
  · congr 1
    rw [mul_sum]
    refine sum_congr rfl fun T hT => ?_
    rw [prod_insert fun hi => ?_]
    exact notMem_erase i _ ((mem_powersetCard.1 hT).1 hi)
  · intro S hS T hT e
    have hS' : i ∉ S := fun hi => notMem_erase i _ ((mem_powersetCard.1 hS).1 hi)
    have hT' : i ∉ T := fun hi => notMem_erase i _ ((mem_powersetCard.1 hT).1 hi)
    rw [← erase_insert hS', ← erase_insert hT', e]
  · rw [disjoint_left]
    intro S hS hT
    obtain ⟨T, _, rfl⟩ := mem_image.1 hT
    exact notMem_erase i _ ((mem_powersetCard.1 hS).1 (mem_insert_self i T))

theorem esym_erase {n : Nat} (l : Fin n → ℝ) (k : Nat) (i : Fin n) : esym l k (univ.erase i) = ∑ T ∈ powersetCard k univ, if i ∈ T then 0 else ∏ j ∈ T, l j := by
  unfold esym
  rw [show (∑ T ∈ powersetCard k univ, if i ∈ T then 0 else ∏ j ∈ T, l j) = ∑ T ∈ (powersetCard k univ).filter (fun T => i ∉ T), ∏ j ∈ T, l j by rw [sum_filter]; exact sum_congr rfl fun T _ => by by_cases h : i ∈ T <;> simp [h]]
  refine sum_congr ?_ fun _ _ => rfl
  ext T
  rw [mem_filter, mem_powersetCard, mem_powersetCard]
  exact ⟨fun h => ⟨⟨subset_univ T, h.2⟩, fun hi => notMem_erase i _ (h.1 hi)⟩, fun h => ⟨fun j hj => mem_erase.2 ⟨fun e => h.2 (e ▸ hj), mem_univ j⟩, h.1.2⟩⟩

theorem esym_sum {n : Nat} (l : Fin n → ℝ) (k : Nat) : ∑ i, l i * esym l k (univ.erase i) = ((k + 1 : Nat) : ℝ) * esym l (k+1) univ := by
  have h : ∀ i, l i * esym l k (univ.erase i) = ∑ T ∈ powersetCard (k+1) univ, if i ∈ T then ∏ j ∈ T, l j else 0 := by
    intro i
    have := esym_split l k i
    rw [esym_erase l (k+1) i] at this
    have h2 : l i * esym l k (univ.erase i) = esym l (k+1) univ - ∑ T ∈ powersetCard (k+1) univ, (if i ∈ T then 0 else ∏ j ∈ T, l j) := by linarith
    rw [h2, esym, ← sum_sub_distrib]
    refine sum_congr rfl fun T _ => ?_
    split <;> simp
  simp only [h]
  rw [sum_comm, esym, mul_sum]
  refine sum_congr rfl fun T hT => ?_
  rw [← sum_filter, sum_const, filter_mem_eq_inter, univ_inter, (mem_powersetCard.1 hT).2, nsmul_eq_mul]

theorem esym_pos {n : Nat} (l : Fin n → ℝ) (h0 : ∀ i, 0 ≤ l i) (k : Nat) : esym l k univ ≠ 0 ↔ k ≤ (univ.filter fun i => l i ≠ 0).card := by
  unfold esym
  constructor
  · intro h
    obtain ⟨T, hT, hne⟩ := exists_ne_zero_of_sum_ne_zero h
    rw [← (mem_powersetCard.1 hT).2]
    exact card_le_card fun i hi => mem_filter.2 ⟨mem_univ i, (prod_ne_zero_iff.1 hne) i hi⟩
  · intro h e
    obtain ⟨T, hT, hc⟩ := exists_subset_card_eq h
    have := (sum_eq_zero_iff_of_nonneg fun S _ => prod_nonneg fun i _ => h0 i).1 e T (mem_powersetCard.2 ⟨subset_univ T, hc⟩)
    obtain ⟨i, hi, hz⟩ := prod_eq_zero_iff.1 this
    exact (mem_filter.1 (hT hi)).2 hz

open Spec Matrix in
theorem penC_diag_mul {n : Nat} {B U : Matrix (Fin n) (Fin n) ℝ} {l : Fin n → ℝ} (h : Diag B U l) (k : Nat) (e : penC B k = U * diagonal (fun i => esym l k (univ.erase i)) * U.transpose) :
    penC B k * B = U * diagonal (fun i => l i * esym l k (univ.erase i)) * U.transpose ∧
    Matrix.trace (penC B k * B) = ((k + 1 : Nat) : ℝ) * esym l (k+1) univ := by
  have e2 : penC B k * B = U * diagonal (fun i => l i * esym l k (univ.erase i)) * U.transpose := by
    rw [e]
    conv_lhs => rw [h.eq]
    rw [Matrix.mul_assoc (U * diagonal _), ← Matrix.mul_assoc U.transpose, ← Matrix.mul_assoc U.transpose, h.orth, Matrix.one_mul, ← Matrix.mul_assoc, Matrix.mul_assoc U, diagonal_mul_diagonal]
    simp only [mul_comm]
  refine ⟨e2, ?_⟩
  rw [e2, Matrix.trace_mul_comm, ← Matrix.mul_assoc, h.orth, Matrix.one_mul, Matrix.trace_diagonal, esym_sum]

open Spec Matrix in
theorem penC_diag {n : Nat} {B U : Matrix (Fin n) (Fin n) ℝ} {l : Fin n → ℝ} (h : Diag B U l) (k : Nat) :
    penC B k = U * diagonal (fun i => esym l k (univ.erase i)) * U.transpose := by
  induction k with
  | zero => simp [penC, esym, h.orth']
  | succ k ih =>
    obtain ⟨h1, h2⟩ := penC_diag_mul h k ih
    have hk : ((k + 1 : Nat) : ℝ) ≠ 0 := Nat.cast_ne_zero.2 (by omega)
    rw [penC, h2, h1, mul_div_cancel_left₀ _ hk]
    have e : (fun i => esym l (k+1) (univ.erase i)) = fun i => esym l (k+1) univ - l i * esym l k (univ.erase i) := by
      funext i; rw [esym_split l k i]; ring
    rw [e, ← diagonal_sub, Matrix.mul_sub, Matrix.sub_mul]
    congr 1
    rw [show (diagonal fun _ : Fin n => esym l (k+1) univ) = esym l (k+1) univ • (1 : Matrix (Fin n) (Fin n) ℝ) by rw [Matrix.smul_one_eq_diagonal], Matrix.mul_smul, Matrix.mul_one, Matrix.smul_mul, h.orth']

open Spec Matrix in
/-- The product tested by the loop vanishes exactly from the rank of the matrix on. -/
theorem penC_mul_zero {r n : Nat} (M : Matrix (Fin r) (Fin n) ℝ) (k : Nat) : penC (M.transpose * M) k * (M.transpose * M) = 0 ↔ M.rank ≤ k := by
  have hB : (M.transpose * M).transpose = M.transpose * M := by rw [Matrix.transpose_mul, Matrix.transpose_transpose]
  obtain ⟨U, l, h⟩ := exists_diag _ hB
  have hl : ∀ i, 0 ≤ l i := by
    intro t
    have e : U.transpose * (M.transpose * M) * U = diagonal l := by
      conv_lhs => rw [h.eq]
      rw [← Matrix.mul_assoc, ← Matrix.mul_assoc, h.orth, Matrix.one_mul, Matrix.mul_assoc, h.orth, Matrix.mul_one]
    have e2 : (M * U).transpose * (M * U) = diagonal l := by
      rw [← e, Matrix.transpose_mul]; simp only [Matrix.mul_assoc]
    have := congrFun (congrFun e2 t) t
    rw [diagonal_apply_eq, Matrix.mul_apply] at this
    rw [← this]
    exact sum_nonneg fun i _ => mul_self_nonneg _
  have hr : M.rank = (univ.filter fun i => l i ≠ 0).card := by
    rw [← Matrix.rank_transpose_mul_self, h.eq]
    have hU : IsUnit U.det := (Matrix.isUnit_iff_isUnit_det U).1 (IsUnit.of_mul_eq_one _ h.orth')
    have hU' : IsUnit U.transpose.det := by rw [Matrix.det_transpose]; exact hU
    rw [Matrix.rank_mul_eq_left_of_isUnit_det _ _ hU', Matrix.rank_mul_eq_right_of_isUnit_det _ _ hU, Matrix.rank_diagonal, Fintype.card_subtype]
  obtain ⟨h1, h2⟩ := penC_diag_mul h k (penC_diag h k)
  have hk : ((k + 1 : Nat) : ℝ) ≠ 0 := Nat.cast_ne_zero.2 (by omega)
  have key : penC (M.transpose * M) k * (M.transpose * M) = 0 ↔ esym l (k+1) univ = 0 := by
    constructor
    · intro e
      rw [e, Matrix.trace_zero] at h2
      exact (mul_eq_zero.1 h2.symm).resolve_left hk
    · intro e
      have hs := esym_sum l k
      rw [e, mul_zero] at hs
      have hn : ∀ i, 0 ≤ l i * esym l k (univ.erase i) := fun i => mul_nonneg (hl i) (sum_nonneg fun T _ => prod_nonneg fun j _ => hl j)
      have h3 := (sum_eq_zero_iff_of_nonneg fun i _ => hn i).1 hs
      rw [h1, show (fun i => l i * esym l k (univ.erase i)) = fun _ => 0 from funext fun i => h3 i (mem_univ i), diagonal_zero, Matrix.mul_zero, Matrix.zero_mul]
  rw [key, hr, ← not_iff_not, ← ne_eq, esym_pos l hl]
  omega

theorem penLoop_length (rows n : Nat) (m : Nat → Nat → ℝ) (k : Nat) : ∀ st : PenS ℝ, PenOk n (mulTMM rows m m) st → st.rank ≤ (toR rows n m).rank + 1 → (toR rows n m).rank + 1 ≤ k + st.rank →
    ∃ st', penLoop 0 n (mulTMM rows m m) k st = .ok st' ∧ st'.rank = (toR rows n m).rank + 1 := by
  have test : ∀ st : PenS ℝ, PenOk n (mulTMM rows m m) st → (matIsTol 0 n n st.cb = true ↔ (toR rows n m).rank ≤ st.rank - 1) := by
    intro st h
    rw [matIsTol_zero, h.cb, toR_mulTMM, penC_mul_zero]
  induction k with
  | zero =>
    intro st h h1 h2
    refine ⟨st, ?_, by omega⟩
    unfold penLoop
    rw [if_pos ((test st h).2 (by omega))]
  | succ k ih =>
    intro st h h1 h2
    have hp := h.pos
    unfold penLoop
    by_cases g : (toR rows n m).rank ≤ st.rank - 1
    · rw [if_pos ((test st h).2 g)]
      exact ⟨st, rfl, by omega⟩
    · have g' : ¬ matIsTol 0 n n st.cb = true := fun e => g ((test st h).1 e)
      rw [if_neg g']
      have h3 : (penStep n (mulTMM rows m m) st).rank = st.rank + 1 := rfl
      exact ih _ (penStep_ok n _ st h fun e => g' ((matIsTol_zero n n _).2 e)) (by omega) (by omega)

/-! ## C117 -/

theorem penrose_exact (fuel rows cols : Nat) (m : Nat → Nat → ℝ) (hm : toR rows cols m ≠ 0) (hf : cols ≤ fuel) :
    ∃ mp, penrose 0 fuel rows cols m = .ok (mp, (toR rows cols m).rank) ∧ IsPinv (toR rows cols m) (toR cols rows mp) := by
  have hr : (toR rows cols m).rank ≤ cols := by
    have := Matrix.rank_le_width (toR rows cols m); exact this
  obtain ⟨st, h1, h2⟩ := penLoop_length rows cols m fuel _ (pen_init _ _) (by dsimp only; omega) (by dsimp only; omega)
  obtain ⟨h3, h4⟩ := penrose_spec fuel rows cols m
  obtain ⟨mp, h5⟩ := h4 st hm h1
  rw [h2, Nat.add_sub_cancel] at h5
  exact ⟨mp, h5, h3 _ _ h5⟩

/-- The four equations of the transposed matrix. -/
theorem IsPinv.transpose {r c : Nat} {A : Matrix (Fin r) (Fin c) K} {X : Matrix (Fin c) (Fin r) K} (h : IsPinv A X) : IsPinv A.transpose X.transpose :=
  ⟨by rw [Matrix.mul_assoc, ← Matrix.transpose_mul, ← Matrix.transpose_mul, h.axa],
   by rw [Matrix.mul_assoc, ← Matrix.transpose_mul, ← Matrix.transpose_mul, h.xax],
   by rw [← Matrix.transpose_mul, h.xa, h.xa], by rw [← Matrix.transpose_mul, h.ax, h.ax]⟩

/-- C117: whatever the field and however long the loop runs, a matrix returned with an exact test satisfies the four Penrose equations. -/
theorem zMatMPInvPenrose_pinv (fuel rows cols : Nat) (m mp : Nat → Nat → K) (rank : Nat) (h : zMatMPInvPenrose 0 fuel rows cols m = .ok (mp, rank)) :
    IsPinv (toR rows cols m) (toR cols rows mp) := by
  unfold zMatMPInvPenrose at h
  by_cases g : cols > rows
  · rw [if_pos g] at h
    match e : penrose 0 fuel cols rows (fun i j => m j i) with
    | .ok (x, r) =>
      rw [e] at h
      cases h
      exact ((penrose_spec fuel cols rows (fun i j => m j i)).1 x r e).transpose
    | .fail => rw [e] at h; cases h
    | .ub => rw [e] at h; cases h
  · rw [if_neg g] at h
    exact (penrose_spec fuel rows cols m).1 mp rank h

/-- C117: over the reals the loop ends after as many turns as the rank of the matrix, which is returned with the inverse. -/
theorem zMatMPInvPenrose_partial (fuel rows cols : Nat) (m : Nat → Nat → ℝ) (hm : ∃ i j, i < rows ∧ j < cols ∧ m i j ≠ 0) (hf : min rows cols ≤ fuel) :
    ∃ mp, zMatMPInvPenrose 0 fuel rows cols m = .ok (mp, (toR rows cols m).rank) ∧ IsPinv (toR rows cols m) (toR cols rows mp) := by
  obtain ⟨i, j, hi, hj, hne⟩ := hm
  unfold zMatMPInvPenrose
  by_cases g : cols > rows
  · rw [if_pos g]
    obtain ⟨mp, h1, h2⟩ := penrose_exact fuel cols rows (fun i j => m j i) (fun e => hne (congrFun (congrFun e ⟨j, hj⟩) ⟨i, hi⟩)) (by omega)
    rw [h1]
    refine ⟨fun i j => mp j i, ?_, h2.transpose⟩
    dsimp only [Res.bind]
    rw [show toR cols rows (fun i j => m j i) = (toR rows cols m).transpose from rfl, Matrix.rank_transpose]
  · rw [if_neg g]
    exact penrose_exact fuel rows cols m (fun e => hne (congrFun (congrFun e ⟨i, hi⟩) ⟨j, hj⟩)) (by omega)

/-- C117: the zero matrix, whose inverse is the zero matrix, makes the function divide zero by zero. -/
theorem zMatMPInvPenrose_zero_violated (fuel rows cols : Nat) (m : Nat → Nat → K) (hm : ∀ i j, i < rows → j < cols → m i j = 0) : zMatMPInvPenrose 0 fuel rows cols m = .ub := by
  have key : ∀ (r c : Nat) (x : Nat → Nat → K), toR r c x = 0 → penrose 0 fuel r c x = .ub := by
    intro r c x hx
    have ht : matIsTol 0 c c (mulTMM r x x) = true := by
      rw [matIsTol_zero, toR_mulTMM, hx, Matrix.mul_zero]
    unfold penrose
    dsimp only
    have : penLoop 0 c (mulTMM r x x) fuel ⟨fun _ _ => 0, fun i j => if i = j then 1 else 0, mulTMM r x x, 0, 1⟩ = .ok ⟨fun _ _ => 0, fun i j => if i = j then 1 else 0, mulTMM r x x, 0, 1⟩ := by
      cases fuel <;> (unfold penLoop; rw [if_pos ht])
    rw [this]
    dsimp only [Res.bind]
    rw [if_pos rfl]
  unfold zMatMPInvPenrose
  by_cases g : cols > rows
  · rw [if_pos g, key cols rows _ (by ext i j; exact hm j i j.2 i.2)]; rfl
  · rw [if_neg g, key rows cols _ (by ext i j; exact hm i j i.2 j.2)]

example : (match zMatMPInvPenrose (K := ℚ) 0 2 2 2 (fun i j => if i = 0 ∧ j = 0 then 1 else if i = 1 ∧ j = 1 then 2 else 0) with
    | .ok (x, r) => decide (r = 2 ∧ x 0 0 = 1 ∧ x 1 1 = 1/2 ∧ x 0 1 = 0) | _ => false) = true := by decide +kernel

/-- A wide matrix of rank one. -/
example : (match zMatMPInvPenrose (K := ℚ) 0 2 2 3 (fun _ _ => 1) with
    | .ok (x, r) => decide (r = 1 ∧ ∀ i : Nat, i < 3 → ∀ j : Nat, j < 2 → x i j = 1/6) | _ => false) = true := by decide +kernel

end Zm.LE
