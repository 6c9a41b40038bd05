import Verif.Props.Eig
import Mathlib.Data.Matrix.Mul
import Mathlib.LinearAlgebra.Matrix.NonsingularInverse

/-! # C107, C108, C109: Hessenberg form, the power method and the accesses of the other eigensolvers -/

set_option linter.unusedSectionVars false

namespace Zm.Eig
open Zm Misc LE Finset
variable {K : Type*} [Field K] [LinearOrder K] [IsStrictOrderedRing K]

/-! ## Specification -/

/-- Zero below the first subdiagonal, in the first `k` columns. -/
def HessUpTo (n k : Nat) (h : Nat → Nat → K) : Prop := ∀ p q, q < k → q + 2 ≤ p → p < n → h p q = 0

/-! ## Closed forms -/

/-- The vector of the reflection, cut to its range. -/
def cut (from_ n : Nat) (u : Nat → K) (j : Nat) : K := if from_ ≤ j ∧ j < n then u j else 0

theorem hessInner (n from_ i : Nat) (x y : K) (u : Nat → K) (m : Nat → Nat → K) :
    forUp from_ n (fun j m => set2 (set2 m i j (m i j - x * u j)) j i ((set2 m i j (m i j - x * u j)) j i - u j * y)) m =
      fun p q => m p q - (if p = i then x * cut from_ n u q else 0) - (if q = i then cut from_ n u p * y else 0) := by
  by_cases hle : from_ ≤ n
  · have := forUp_inv (lo := from_) (hi := n) (fun j m => set2 (set2 m i j (m i j - x * u j)) j i ((set2 m i j (m i j - x * u j)) j i - u j * y)) m
      (fun k t => ∀ p q, t p q = m p q - (if p = i then x * cut from_ k u q else 0) - (if q = i then cut from_ k u p * y else 0)) hle
      (by intro p q
          have z : ∀ q, cut from_ from_ u q = 0 := fun q => if_neg (by omega)
          simp [z])
      (by
        intro k t h1 h2 h p q
        have c1 : ∀ q, q ≠ k → cut from_ (k+1) u q = cut from_ k u q := by
          intro q hq
          unfold cut
          by_cases g : from_ ≤ q ∧ q < k
          · rw [if_pos g, if_pos (by omega)]
          · rw [if_neg g, if_neg (by omega)]
        have c2 : cut from_ (k+1) u k = u k := if_pos (by omega)
        have c3 : cut from_ k u k = 0 := if_neg (by omega)
        by_cases e1 : p = k ∧ q = i
        · obtain ⟨rfl, rfl⟩ := e1
          rw [set2_same]
          by_cases e : p = q
          · subst e
            rw [set2_same, h, if_pos rfl, if_pos rfl, if_pos rfl, if_pos rfl, c2, c3]; ring
          · rw [set2_ne_row _ _ e, h, if_neg e, if_neg e, if_pos rfl, if_pos rfl, c2, c3]; ring
        rw [set2_ne _ _ e1]
        by_cases e2 : p = i ∧ q = k
        · obtain ⟨rfl, rfl⟩ := e2
          have e : q ≠ p := fun e => e1 ⟨e.symm, e⟩
          rw [set2_same, h, if_pos rfl, if_pos rfl, if_neg e, if_neg e, c2, c3]; ring
        rw [set2_ne _ _ e2, h]
        congr 1
        · congr 1
          by_cases g : p = i
          · rw [if_pos g, if_pos g, c1 q (fun e => e2 ⟨g, e⟩)]
          · rw [if_neg g, if_neg g]
        · by_cases g : q = i
          · rw [if_pos g, if_pos g, c1 p (fun e => e1 ⟨e, g⟩)]
          · rw [if_neg g, if_neg g])
    funext p q
    exact this p q
  · rw [forUp_of_le (by omega)]
    have z : ∀ q, cut from_ n u q = 0 := fun q => if_neg (by omega)
    funext p q
    simp [z]

theorem hessOuter (n from_ : Nat) (v w u : Nat → K) (m : Nat → Nat → K) (p q : Nat) (hp : p < n) (hq : q < n) :
    forUp 0 n (fun i m => forUp from_ n (fun j m => set2 (set2 m i j (m i j - v i * u j)) j i ((set2 m i j (m i j - v i * u j)) j i - u j * w i)) m) m p q =
      m p q - v p * cut from_ n u q - cut from_ n u p * w q := by
  have := forUp_inv (lo := 0) (hi := n) (fun i m => forUp from_ n (fun j m => set2 (set2 m i j (m i j - v i * u j)) j i ((set2 m i j (m i j - v i * u j)) j i - u j * w i)) m) m
    (fun k t => ∀ p q, t p q = m p q - (if p < k then v p * cut from_ n u q else 0) - (if q < k then cut from_ n u p * w q else 0)) (by omega)
    (by intro p q; simp)
    (by
      intro k t _ _ h p q
      rw [hessInner]
      beta_reduce
      rw [h]
      have a1 : (if p < k + 1 then v p * cut from_ n u q else 0) = (if p < k then v p * cut from_ n u q else 0) + (if p = k then v k * cut from_ n u q else 0) := by
        by_cases e : p = k
        · subst e; simp
        · rw [if_neg e, add_zero]; congr 1; exact propext ⟨fun _ => by omega, fun _ => by omega⟩
      have a2 : (if q < k + 1 then cut from_ n u p * w q else 0) = (if q < k then cut from_ n u p * w q else 0) + (if q = k then cut from_ n u p * w k else 0) := by
        by_cases e : q = k
        · subst e; simp
        · rw [if_neg e, add_zero]; congr 1; exact propext ⟨fun _ => by omega, fun _ => by omega⟩
      rw [a1, a2]; ring)
  rw [this p q, if_pos hp, if_pos hq]

theorem sum_cut (from_ n : Nat) (f u : Nat → K) : ∑ k ∈ Ico from_ n, f k * u k = ∑ k ∈ range n, f k * cut from_ n u k := by
  have : ∀ k ∈ range n, f k * cut from_ n u k = if k ∈ Ico from_ n then f k * u k else 0 := by
    intro k hk
    unfold cut
    simp only [mem_Ico]
    split <;> simp
  rw [sum_congr rfl this, ← sum_filter]
  refine sum_congr ?_ fun _ _ => rfl
  ext k
  simp only [mem_Ico, mem_filter, mem_range]
  omega

/-- The reflection from both sides. -/
theorem hessApply_spec (n from_ : Nat) (hf : from_ ≤ n) (m : Nat → Nat → K) (u : Nat → K) (p q : Nat) (hp : p < n) (hq : q < n) :
    hessApply n m from_ u p q = m p q - 2 * (∑ j ∈ range n, m p j * cut from_ n u j) * cut from_ n u q
      - 2 * cut from_ n u p * (∑ j ∈ range n, m j q * cut from_ n u j)
      + 4 * (∑ i ∈ range n, (∑ j ∈ range n, m i j * cut from_ n u j) * cut from_ n u i) * cut from_ n u p * cut from_ n u q := by
  unfold hessApply
  dsimp only
  rw [hessOuter n from_ _ _ u m p q hp hq]
  rw [forUp_set1 (lo := from_) (hi := n) _ _ (fun i => forUp from_ n (fun j x => x + m i j * u j) 0 * 2 - forUp from_ n (fun j x => x + (forUp from_ n (fun k x => x + m j k * u k) 0 * 2) * u j) 0 * u i)
      (by intro k t _ _ _ h; rw [h k (by omega)]),
    forUp_set1 (lo := from_) (hi := n) _ _ (fun i => forUp from_ n (fun j x => x + m j i * u j) 0 * 2 - forUp from_ n (fun j x => x + (forUp from_ n (fun k x => x + m j k * u k) 0 * 2) * u j) 0 * u i)
      (by intro k t _ _ _ h; rw [h k (by omega)])]
  beta_reduce
  have e1 : ∀ i, forUp from_ n (fun j x => x + m i j * u j) 0 = ∑ j ∈ range n, m i j * cut from_ n u j := fun i => by
    rw [forUp_add _ _ _ _ hf, zero_add]; exact sum_cut from_ n _ u
  have e2 : ∀ i, forUp from_ n (fun j x => x + m j i * u j) 0 = ∑ j ∈ range n, m j i * cut from_ n u j := fun i => by
    rw [forUp_add _ _ _ _ hf, zero_add]; exact sum_cut from_ n (fun j => m j i) u
  simp only [e1, e2]
  have e3 : forUp from_ n (fun j x => x + (∑ k ∈ range n, m j k * cut from_ n u k) * 2 * u j) 0 = 2 * ∑ i ∈ range n, (∑ j ∈ range n, m i j * cut from_ n u j) * cut from_ n u i := by
    rw [forUp_add _ _ _ _ hf, zero_add, sum_cut from_ n _ u, mul_sum]
    exact sum_congr rfl fun k _ => by ring
  rw [e3]
  have c : ∀ j, j < n → cut from_ n u j = if from_ ≤ j ∧ j < n then u j else 0 := fun j _ => rfl
  by_cases g1 : from_ ≤ p ∧ p < n <;> by_cases g2 : from_ ≤ q ∧ q < n
  · rw [if_pos g1, if_pos g2]
    have d1 : cut from_ n u p = u p := if_pos g1
    have d2 : cut from_ n u q = u q := if_pos g2
    rw [d1, d2]; ring
  · rw [if_pos g1, if_neg g2]
    have d2 : cut from_ n u q = 0 := if_neg g2
    rw [d2]; ring
  · rw [if_neg g1, if_pos g2]
    have d1 : cut from_ n u p = 0 := if_neg g1
    rw [d1]; ring
  · rw [if_neg g1, if_neg g2]
    have d1 : cut from_ n u p = 0 := if_neg g1
    have d2 : cut from_ n u q = 0 := if_neg g2
    rw [d1, d2]; ring

/-- The reflection of the transformation matrix. -/
theorem hessApplyP_spec (n from_ : Nat) (hf : from_ ≤ n) (m : Nat → Nat → K) (u : Nat → K) (p q : Nat) (hp : p < n) (hq : q < n) :
    hessApplyP n m from_ u p q = m p q - 2 * (∑ j ∈ range n, m p j * cut from_ n u j) * cut from_ n u q := by
  unfold hessApplyP
  dsimp only
  have e1 : ∀ i, forUp from_ n (fun j x => x + m i j * u j) 0 = ∑ j ∈ range n, m i j * cut from_ n u j := fun i => by
    rw [forUp_add _ _ _ _ hf, zero_add]; exact sum_cut from_ n _ u
  simp only [e1]
  generalize (fun i => ∑ j ∈ range n, m i j * cut from_ n u j) = s
  have := forUp_inv (lo := 0) (hi := n) (fun i p => forUp from_ n (fun j p => set2 p i j (p i j - (∑ j ∈ range n, m i j * cut from_ n u j) * 2 * u j)) p) m
    (fun k t => ∀ p q, t p q = if p < k then m p q - (∑ j ∈ range n, m p j * cut from_ n u j) * 2 * cut from_ n u q else m p q) (by omega) (by intro p q; simp)
    (by
      intro k t _ _ h p q
      rw [forUp_row (lo := from_) (hi := n) k _ t (fun j => t k j - (∑ j ∈ range n, m k j * cut from_ n u j) * 2 * u j) (by intro j t' _ _ g; rw [g k j (by omega)])]
      beta_reduce
      by_cases e : p = k
      · subst e
        rw [if_pos (show p < p + 1 by omega)]
        by_cases g : from_ ≤ q ∧ q < n
        · have d : cut from_ n u q = u q := if_pos g
          rw [if_pos ⟨rfl, g⟩, h, if_neg (by omega), d]
        · have d : cut from_ n u q = 0 := if_neg g
          rw [if_neg (by omega), h, if_neg (by omega), d]; ring
      · rw [if_neg (by omega), h]
        by_cases g : p < k
        · rw [if_pos g, if_pos (by omega)]
        · rw [if_neg g, if_neg (by omega)])
  rw [this p q, if_pos hp]
  ring

/-! ## Matrices -/

/-- A square matrix of the library as a matrix of Mathlib. -/
def toM (n : Nat) (m : Nat → Nat → K) : Matrix (Fin n) (Fin n) K := fun i j => m i j

/-- The reflection along `u`. -/
def refl (n from_ : Nat) (u : Nat → K) : Matrix (Fin n) (Fin n) K := fun i j => (if i = j then 1 else 0) - 2 * cut from_ n u i * cut from_ n u j

theorem toM_apply (n from_ : Nat) (hf : from_ ≤ n) (m : Nat → Nat → K) (u : Nat → K) : toM n (hessApply n m from_ u) = refl n from_ u * toM n m * refl n from_ u := by
  ext p q
  rw [Matrix.mul_apply]
  simp only [Matrix.mul_apply]
  show hessApply n m from_ u p q = _
  rw [hessApply_spec n from_ hf m u p q p.2 q.2]
  simp only [sum_range]
  have h1 : ∀ (f : Fin n → K), ∑ k : Fin n, refl n from_ u p k * f k = f p - 2 * cut from_ n u p * ∑ k : Fin n, f k * cut from_ n u k := by
    intro f
    unfold refl
    simp only [sub_mul, sum_sub_distrib, ite_mul, one_mul, zero_mul, sum_ite_eq, mem_univ, if_true, mul_sum]
    congr 1
    exact sum_congr rfl fun k _ => by ring
  have h2 : ∀ (f : Fin n → K), ∑ k : Fin n, f k * refl n from_ u k q = f q - 2 * (∑ k : Fin n, f k * cut from_ n u k) * cut from_ n u q := by
    intro f
    unfold refl
    simp only [mul_sub, sum_sub_distrib, mul_ite, mul_one, mul_zero, sum_ite_eq', mem_univ, if_true, mul_sum, sum_mul]
    congr 1
    exact sum_congr rfl fun k _ => by ring
  rw [h2]
  have e : ∀ k : Fin n, ∑ j : Fin n, refl n from_ u p j * toM n m j k = m p k - 2 * cut from_ n u p * ∑ j : Fin n, m j k * cut from_ n u j := fun k => h1 fun j => m j k
  simp only [e, sub_mul, sum_sub_distrib]
  have e4 : ∑ x : Fin n, 2 * cut from_ n u p * (∑ j : Fin n, m j x * cut from_ n u j) * cut from_ n u x =
      2 * cut from_ n u p * ∑ i : Fin n, (∑ j : Fin n, m i j * cut from_ n u j) * cut from_ n u i := by
    simp only [mul_sum, sum_mul]
    rw [sum_comm]
    exact sum_congr rfl fun i _ => sum_congr rfl fun j _ => by ring
  rw [e4]
  ring

theorem toM_applyP (n from_ : Nat) (hf : from_ ≤ n) (m : Nat → Nat → K) (u : Nat → K) : toM n (hessApplyP n m from_ u) = toM n m * refl n from_ u := by
  ext p q
  rw [Matrix.mul_apply]
  show hessApplyP n m from_ u p q = _
  rw [hessApplyP_spec n from_ hf m u p q p.2 q.2, sum_range]
  unfold refl toM
  simp only [mul_sub, sum_sub_distrib, mul_ite, mul_one, mul_zero, sum_ite_eq', mem_univ, if_true, mul_sum, sum_mul]
  congr 1
  exact sum_congr rfl fun k _ => by ring

theorem refl_sq (n from_ : Nat) (u : Nat → K) (h : ∑ k ∈ range n, cut from_ n u k * cut from_ n u k = 1 ∨ ∀ k, k < n → cut from_ n u k = 0) :
    refl n from_ u * refl n from_ u = 1 := by
  ext p q
  rw [Matrix.mul_apply, Matrix.one_apply]
  have e : ∑ k : Fin n, refl n from_ u p k * refl n from_ u k q =
      (if p = q then 1 else 0) - 4 * cut from_ n u p * cut from_ n u q + 4 * cut from_ n u p * cut from_ n u q * ∑ k ∈ range n, cut from_ n u k * cut from_ n u k := by
    unfold refl
    simp only [sub_mul, mul_sub, sum_sub_distrib, ite_mul, mul_ite, one_mul, mul_one, zero_mul, mul_zero, sum_ite_eq, sum_ite_eq', mem_univ, if_true, sum_range, mul_sum]
    have : ∑ x : Fin n, 2 * cut from_ n u p * cut from_ n u x * (2 * cut from_ n u x * cut from_ n u q) = ∑ i : Fin n, 4 * cut from_ n u p * cut from_ n u q * (cut from_ n u i * cut from_ n u i) :=
      sum_congr rfl fun i _ => by ring
    rw [this]
    ring
  rw [e]
  rcases h with h | h
  · rw [h]; ring
  · rw [h p p.2]; ring

theorem refl_symm (n from_ : Nat) (u : Nat → K) : (refl n from_ u).transpose = refl n from_ u := by
  ext p q
  rw [Matrix.transpose_apply]
  unfold refl
  congr 1
  · by_cases e : p = q <;> simp [e, eq_comm]
  · ring

theorem orthCols_iff (n : Nat) (V : Nat → Nat → K) : OrthCols n V ↔ (toM n V).transpose * toM n V = 1 := by
  constructor
  · intro h
    ext p q
    rw [Matrix.mul_apply, Matrix.one_apply]
    have := h p q p.2 q.2
    rw [sum_range] at this
    simp only [Matrix.transpose_apply]
    show ∑ j : Fin n, V j p * V j q = _
    rw [this]
    simp [Fin.ext_iff]
  · intro h p q hp hq
    have := congrFun (congrFun h ⟨p, hp⟩) ⟨q, hq⟩
    rw [Matrix.mul_apply, Matrix.one_apply] at this
    rw [sum_range]
    simp only [Matrix.transpose_apply] at this
    have e : ∑ j : Fin n, V j p * V j q = _ := this
    rw [e]
    simp [Fin.ext_iff]

theorem similar_iff (n : Nat) (M V D : Nat → Nat → K) : Similar n M V D 0 ↔ toM n M * toM n V = toM n V * toM n D := by
  constructor
  · intro h
    ext a p
    rw [Matrix.mul_apply, Matrix.mul_apply]
    have := h a p a.2 p.2
    rw [sum_range, sum_range, zero_mul, add_zero] at this
    exact this
  · intro h a p ha hp
    have := congrFun (congrFun h ⟨a, ha⟩) ⟨p, hp⟩
    rw [Matrix.mul_apply, Matrix.mul_apply] at this
    rw [sum_range, sum_range, zero_mul, add_zero]
    exact this

/-! ## One column -/

theorem hessVec_loop (n from_ col : Nat) (hf : from_ ≤ n) (m : Nat → Nat → K) (u : Nat → K) :
    forUp from_ n (fun i (t : (Nat → K) × K) => (set1 t.1 i (m i col), t.2 + m i col * m i col)) (u, 0) =
      (fun j => if from_ ≤ j ∧ j < n then m j col else u j, ∑ k ∈ Ico from_ n, m k col * m k col) := by
  have := forUp_inv (lo := from_) (hi := n) (fun i (t : (Nat → K) × K) => (set1 t.1 i (m i col), t.2 + m i col * m i col)) (u, 0)
    (fun k t => t = (fun j => if from_ ≤ j ∧ j < k then m j col else u j, ∑ i ∈ Ico from_ k, m i col * m i col)) hf (by
      simp only [Ico_self, sum_empty]
      congr 1
      funext j
      rw [if_neg (by omega)]) (by
    rintro k t h1 h2 rfl
    dsimp only
    rw [sum_Ico_succ_top h1]
    congr 1
    funext j
    by_cases e : j = k
    · subst e; rw [set1_same, if_pos (by omega)]
    · rw [set1_ne _ _ e]
      by_cases g : from_ ≤ j ∧ j < k
      · rw [if_pos g, if_pos (by omega)]
      · rw [if_neg g, if_neg (by omega)])
  exact this

/-- What the vector of the reflection satisfies: it has length one (or is zero if the column is), and the reflection clears
the column below its first element. -/
theorem hessVec_spec (sqrt : K → K) (hq : SqrtOk sqrt) (tol : K) (n from_ col : Nat) (hf : from_ < n) (m : Nat → Nat → K) (u : Nat → K)
    (hs : tol < ∑ k ∈ Ico from_ n, m k col * m k col ∨ ∀ k, from_ ≤ k → k < n → m k col = 0) (ht : 0 ≤ tol) :
    (∑ k ∈ range n, cut from_ n (hessVec sqrt tol n m col from_ u) k * cut from_ n (hessVec sqrt tol n m col from_ u) k = 1 ∨
      ∀ k, k < n → cut from_ n (hessVec sqrt tol n m col from_ u) k = 0) ∧
    ∀ p, from_ < p → p < n → m p col - 2 * cut from_ n (hessVec sqrt tol n m col from_ u) p * (∑ j ∈ range n, m j col * cut from_ n (hessVec sqrt tol n m col from_ u) j) = 0 := by
  unfold hessVec
  rw [hessVec_loop n from_ col (le_of_lt hf) m u]
  dsimp only
  by_cases g : |∑ k ∈ Ico from_ n, m k col * m k col| ≤ tol
  · rw [if_pos g]
    have hz : ∀ k, from_ ≤ k → k < n → m k col = 0 := by
      rcases hs with h | h
      · exact absurd (le_trans (le_abs_self _) g) (not_le.2 h)
      · exact h
    have c0 : ∀ k, cut from_ n (fun j => if from_ ≤ j ∧ j < n then m j col else u j) k = 0 := by
      intro k
      unfold cut
      by_cases e : from_ ≤ k ∧ k < n
      · rw [if_pos e]; beta_reduce; rw [if_pos e]; exact hz k e.1 e.2
      · rw [if_neg e]
    refine ⟨Or.inr fun k _ => c0 k, fun p h1 h2 => ?_⟩
    rw [c0, hz p (by omega) h2]; ring
  · rw [if_neg g]
    have hS : 0 < ∑ k ∈ Ico from_ n, m k col * m k col := by
      have h0 : 0 ≤ ∑ k ∈ Ico from_ n, m k col * m k col := sum_nonneg fun _ _ => mul_self_nonneg _
      rw [abs_of_nonneg h0] at g
      exact lt_of_le_of_lt ht (not_le.1 g)
    have hSum : ∑ k ∈ Ico from_ n, m k col * m k col = m from_ col * m from_ col + ∑ k ∈ Ico (from_+1) n, m k col * m k col := sum_eq_sum_Ico_succ_bot hf _
    generalize ∑ k ∈ Ico from_ n, m k col * m k col = S at hS hSum g
    obtain ⟨q1, q2⟩ := hq S (le_of_lt hS)
    have hq0 : 0 < sqrt S := lt_of_le_of_ne q1 fun e => by rw [← e, mul_zero] at q2; exact absurd hS (by rw [← q2]; exact lt_irrefl _)
    have hs2 : (-zSgn (m from_ col) * sqrt S) * (-zSgn (m from_ col) * sqrt S) = S := by
      have := zSgn_sq (m from_ col)
      calc _ = zSgn (m from_ col) * zSgn (m from_ col) * (sqrt S * sqrt S) := by ring
        _ = S := by rw [this, q2, one_mul]
    have hsx : (-zSgn (m from_ col) * sqrt S) * m from_ col ≤ 0 := by
      unfold zSgn
      split
      · rename_i h; nlinarith
      · rename_i h; nlinarith
    generalize -zSgn (m from_ col) * sqrt S = s at hs2 hsx
    rw [if_pos ⟨le_refl _, hf⟩]
    have hD : 0 < 2 * (s - m from_ col) * s := by nlinarith
    obtain ⟨d1, d2⟩ := hq _ (le_of_lt hD)
    have hD0 : sqrt (2 * (s - m from_ col) * s) ≠ 0 := fun e => by rw [e, mul_zero] at d2; exact absurd hD (by rw [← d2]; exact lt_irrefl _)
    generalize hDd : sqrt (2 * (s - m from_ col) * s) = D at d2 hD0
    rw [forUp_set1 (lo := from_) (hi := n) _ _ (fun i => (if i = from_ then m from_ col - s else m i col) * (1 / D)) (by
      intro k t h1 h2 _ h
      rw [h k (by omega)]
      by_cases e : k = from_
      · subst e; rw [set1_same, if_pos rfl]
      · rw [set1_ne _ _ e, if_neg e, if_pos ⟨h1, h2⟩])]
    have c : ∀ k, cut from_ n (fun j => if from_ ≤ j ∧ j < n then (if j = from_ then m from_ col - s else m j col) * (1 / D) else set1 (fun j => if from_ ≤ j ∧ j < n then m j col else u j) from_ (m from_ col - s) j) k =
        cut from_ n (fun j => (if j = from_ then m from_ col - s else m j col) * (1 / D)) k := by
      intro k
      unfold cut
      by_cases e : from_ ≤ k ∧ k < n
      · rw [if_pos e, if_pos e]; beta_reduce; rw [if_pos e]
      · rw [if_neg e, if_neg e]
    simp only [c]
    have cf : cut from_ n (fun j => (if j = from_ then m from_ col - s else m j col) * (1 / D)) from_ = (m from_ col - s) * (1 / D) := by
      unfold cut; rw [if_pos ⟨le_refl _, hf⟩]; beta_reduce; rw [if_pos rfl]
    have cg : ∀ k, from_ < k → k < n → cut from_ n (fun j => (if j = from_ then m from_ col - s else m j col) * (1 / D)) k = m k col * (1 / D) := by
      intro k h1 h2; unfold cut; rw [if_pos ⟨by omega, h2⟩]; beta_reduce; rw [if_neg (by omega)]
    have sumC : ∀ f : Nat → K, ∑ k ∈ range n, f k * cut from_ n (fun j => (if j = from_ then m from_ col - s else m j col) * (1 / D)) k =
        f from_ * ((m from_ col - s) * (1 / D)) + ∑ k ∈ Ico (from_+1) n, f k * (m k col * (1 / D)) := by
      intro f
      rw [← sum_cut, sum_eq_sum_Ico_succ_bot hf, if_pos rfl]
      congr 1
      exact sum_congr rfl fun k hk => by rw [if_neg (by have := (mem_Ico.1 hk).1; omega)]
    constructor
    · left
      rw [sumC, cf, sum_congr rfl fun k hk => by rw [cg k (by have := (mem_Ico.1 hk).1; omega) (mem_Ico.1 hk).2]]
      have : ∑ k ∈ Ico (from_+1) n, m k col * (1 / D) * (m k col * (1 / D)) = (∑ k ∈ Ico (from_+1) n, m k col * m k col) * (1 / (D * D)) := by
        rw [sum_mul]; exact sum_congr rfl fun k _ => by field_simp
      rw [this]
      generalize ∑ k ∈ Ico (from_+1) n, m k col * m k col = T at hSum
      field_simp
      linear_combination (-1) * d2 - hs2 - hSum
    · intro p h1 h2
      rw [sumC, cg p h1 h2]
      have : ∑ k ∈ Ico (from_+1) n, m k col * (m k col * (1 / D)) = (∑ k ∈ Ico (from_+1) n, m k col * m k col) * (1 / D) := by
        rw [sum_mul]; exact sum_congr rfl fun k _ => by ring
      rw [this]
      generalize ∑ k ∈ Ico (from_+1) n, m k col * m k col = T at hSum
      field_simp
      linear_combination (m p col) * (d2 + 2 * hSum + 2 * hs2)

/-- **C107.** One column: in one round, whatever the other elements are. -/
theorem hessCol_spec (sqrt : K → K) (hq : SqrtOk sqrt) (size n fuel : Nat) (hn : n + 2 < size) (hf : 0 < fuel) (M : Nat → Nat → K) (s : HS K)
    (h1 : HessUpTo size n s.h) (h2 : OrthCols size s.p) (h3 : Similar size M s.p s.h 0) :
    ∃ t, hessCol sqrt 0 size n fuel s = .ok t ∧ HessUpTo size (n+1) t.h ∧ OrthCols size t.p ∧ Similar size M t.p t.h 0 := by
  obtain ⟨fuel, rfl⟩ : ∃ f, fuel = f + 1 := ⟨fuel - 1, by omega⟩
  unfold hessCol
  dsimp only
  have hs : (0 : K) < ∑ k ∈ Ico (n+1) size, s.h k n * s.h k n ∨ ∀ k, n + 1 ≤ k → k < size → s.h k n = 0 := by
    by_cases g : ∑ k ∈ Ico (n+1) size, s.h k n * s.h k n = 0
    · right
      intro k k1 k2
      exact mul_self_eq_zero.1 ((sum_eq_zero_iff_of_nonneg fun k _ => mul_self_nonneg _).1 g k (mem_Ico.2 ⟨k1, k2⟩))
    · left
      exact lt_of_le_of_ne (sum_nonneg fun k _ => mul_self_nonneg _) (Ne.symm g)
  obtain ⟨v1, v2⟩ := hessVec_spec sqrt hq 0 size (n+1) n (by omega) s.h s.u hs (le_refl _)
  generalize hessVec sqrt 0 size s.h n (n+1) s.u = u at v1 v2 ⊢
  have cz : ∀ q, q < n + 1 → cut (n+1) size u q = 0 := fun q hq => if_neg (by omega)
  have hess : HessUpTo size (n+1) (hessApply size s.h (n+1) u) := by
    intro p q hq' hp hp'
    rw [hessApply_spec size (n+1) (by omega) s.h u p q hp' (by omega), cz q hq', mul_zero, mul_zero, sub_zero, add_zero]
    by_cases e : q = n
    · subst e; exact v2 p (by omega) hp'
    · have z : ∑ j ∈ range size, s.h j q * cut (n+1) size u j = 0 := by
        refine sum_eq_zero fun j hj => ?_
        by_cases g : j < n + 1
        · rw [cz j g, mul_zero]
        · rw [h1 j q (by omega) (by omega) (mem_range.1 hj), zero_mul]
      rw [z, h1 p q (by omega) hp hp', mul_zero, sub_zero]
  rw [if_neg (by
    rintro ⟨i, i1, i2, i3⟩
    exact i3 (by rw [hess i n (by omega) i2 i1, abs_zero]))]
  refine ⟨_, rfl, hess, ?_, ?_⟩
  · rw [orthCols_iff] at h2 ⊢
    show (toM size (hessApplyP size s.p (n+1) u)).transpose * toM size (hessApplyP size s.p (n+1) u) = 1
    rw [toM_applyP size (n+1) (by omega), Matrix.transpose_mul, refl_symm, Matrix.mul_assoc, ← Matrix.mul_assoc _ (toM size s.p), h2, Matrix.one_mul]
    exact refl_sq size (n+1) u v1
  · rw [similar_iff] at h3 ⊢
    show toM size M * toM size (hessApplyP size s.p (n+1) u) = toM size (hessApplyP size s.p (n+1) u) * toM size (hessApply size s.h (n+1) u)
    rw [toM_applyP size (n+1) (by omega), toM_apply size (n+1) (by omega), ← Matrix.mul_assoc, h3]
    rw [Matrix.mul_assoc (refl size (n+1) u), ← Matrix.mul_assoc (toM size s.p * refl size (n+1) u), Matrix.mul_assoc (toM size s.p) (refl size (n+1) u) (refl size (n+1) u),
      refl_sq size (n+1) u v1, Matrix.mul_one, Matrix.mul_assoc]

/-- **C107.** In exact arithmetic without a tolerance: the Hessenberg form `h` is zero below the first subdiagonal, the
transformation matrix `p` is orthogonal, and `m p = p h`. -/
theorem zMatToHessenberg_correct_partial (sqrt : K → K) (hq : SqrtOk sqrt) (fuel size : Nat) (hf : 0 < fuel) (M : Nat → Nat → K) :
    ∃ h p, zMatToHessenberg sqrt 0 fuel size M = .ok (h, p) ∧ (∀ i j, j + 2 ≤ i → i < size → h i j = 0) ∧ OrthCols size p ∧ Similar size M p h 0 := by
  unfold zMatToHessenberg
  obtain ⟨t, e1, e2⟩ := forUpM_ok (lo := 0) (hi := size - 2) (fun n s => hessCol sqrt 0 size n fuel s) ⟨M, fun i j => if i = j then 1 else 0, fun _ => 0⟩
    (fun n t => HessUpTo size n t.h ∧ OrthCols size t.p ∧ Similar size M t.p t.h 0) (by omega)
    (by
      refine ⟨fun p q h => by omega, ?_, ?_⟩
      · intro p q hp hq
        simp only [ite_mul, one_mul, zero_mul, sum_ite_eq', mem_range, if_pos hp]
      · rw [similar_iff]
        have : toM size (fun i j => if i = j then (1 : K) else 0) = 1 := by
          ext i j
          rw [Matrix.one_apply]
          simp [toM, Fin.ext_iff]
        rw [this, Matrix.one_mul, Matrix.mul_one])
    (by
      rintro n s - hn ⟨h1, h2, h3⟩
      exact hessCol_spec sqrt hq size n fuel (by omega) hf M s h1 h2 h3)
  rw [e1]
  refine ⟨_, _, rfl, fun i j h1 h2 => e2.1 i j (by omega) h1 h2, e2.2⟩

/-- One round with a column whose squares vanish in the tolerance while an element does not. -/
theorem hessCol_stuck (sqrt : K → K) (tol e : K) (he : 0 < e) (hes : e * e ≤ tol) (he1 : 2 * (e * e) ≤ 1) (fuel : Nat) (s : HS K) (h1 : s.h 1 0 = 0) (h2 : s.h 2 0 ≤ e)
    (h3 : tol + 2 * (e * e * e) * fuel < s.h 2 0) : hessCol sqrt tol 3 0 fuel s = .ub := by
  induction fuel generalizing s with
  | zero => rfl
  | succ fuel ih =>
    have ht : 0 ≤ tol := le_trans (mul_self_nonneg e) hes
    have he3 : 0 < e * e * e := by positivity
    push_cast at h3
    have hf0 : (0 : K) ≤ fuel := Nat.cast_nonneg _
    have hpos : 0 < s.h 2 0 := by nlinarith
    have hsq : s.h 2 0 * s.h 2 0 ≤ e * e := mul_self_le_mul_self (le_of_lt hpos) h2
    have hu : ∀ j, 1 ≤ j → j < 3 → hessVec sqrt tol 3 s.h 0 1 s.u j = s.h j 0 := by
      intro j j1 j2
      unfold hessVec
      rw [hessVec_loop 3 1 0 (by omega) s.h s.u]
      dsimp only
      have : ∑ k ∈ Ico 1 3, s.h k 0 * s.h k 0 = s.h 2 0 * s.h 2 0 := by
        rw [sum_Ico_succ_top (by omega), sum_Ico_succ_top (by omega), Ico_self, sum_empty, h1]; ring
      rw [this, if_pos (by rw [abs_of_nonneg (mul_self_nonneg _)]; exact le_trans hsq hes)]
      exact if_pos ⟨j1, j2⟩
    unfold hessCol
    dsimp only
    generalize hessVec sqrt tol 3 s.h 0 (0+1) s.u = u at hu ⊢
    have c0 : cut 1 3 u 0 = 0 := if_neg (by omega)
    have c1 : cut 1 3 u 1 = 0 := by rw [← h1, ← hu 1 (by omega) (by omega)]; exact if_pos (by omega)
    have c2 : cut 1 3 u 2 = s.h 2 0 := by rw [← hu 2 (by omega) (by omega)]; exact if_pos (by omega)
    have n1 : hessApply 3 s.h 1 u 1 0 = 0 := by
      rw [hessApply_spec 3 1 (by omega) s.h u 1 0 (by omega) (by omega), c0, c1, h1]; ring
    have n2 : hessApply 3 s.h 1 u 2 0 = s.h 2 0 - 2 * (s.h 2 0 * s.h 2 0 * s.h 2 0) := by
      rw [hessApply_spec 3 1 (by omega) s.h u 2 0 (by omega) (by omega), c0, c2, sum_range_succ, sum_range_succ, sum_range_succ, sum_range_zero, sum_range_succ, sum_range_succ, sum_range_succ, sum_range_zero, c0, c1, c2, h1]
      ring
    have hcub : s.h 2 0 * s.h 2 0 * s.h 2 0 ≤ e * e * e := mul_le_mul hsq h2 (le_of_lt hpos) (mul_self_nonneg e)
    have lo : tol + 2 * (e * e * e) * fuel < s.h 2 0 - 2 * (s.h 2 0 * s.h 2 0 * s.h 2 0) := by linarith
    have lo' : tol < s.h 2 0 - 2 * (s.h 2 0 * s.h 2 0 * s.h 2 0) := by nlinarith
    have hcp : 0 ≤ s.h 2 0 * s.h 2 0 * s.h 2 0 := by positivity
    rw [if_pos ⟨2, by omega, by omega, by rw [n2, not_le]; exact lt_of_lt_of_le lo' (le_abs_self _)⟩]
    exact ih _ n1 (by show hessApply 3 s.h 1 u 2 0 ≤ e; rw [n2]; linarith) (by show _ < hessApply 3 s.h 1 u 2 0; rw [n2]; exact lo)

/-- **C107 is violated**: a column (0, 10^-7) below the diagonal is above the tolerance, its square is not.  The vector of
the reflection is then not normalised, and after forty million million rounds the function is still trying. -/
theorem zMatToHessenberg_violated (sqrt : ℚ → ℚ) (fuel : Nat) (hf : fuel ≤ 40000000000000) (M : Nat → Nat → ℚ) (h1 : M 1 0 = 0) (h2 : M 2 0 = 1 / 10 ^ 7) :
    zMatToHessenberg sqrt (1 / 10 ^ 12) fuel 3 M = .ub := by
  unfold zMatToHessenberg
  have : forUpM 0 (3 - 2) (fun n s => hessCol sqrt (1 / 10 ^ 12) 3 n fuel s) (⟨M, fun i j => if i = j then 1 else 0, fun _ => 0⟩ : HS ℚ) = .ub := by
    rw [forUpM_cons (by omega), hessCol_stuck sqrt (1 / 10 ^ 12) (1 / 10 ^ 7) (by norm_num) (by norm_num) (by norm_num) fuel _ h1 (le_of_eq h2) (by
      show _ < M 2 0
      rw [h2]
      have : (fuel : ℚ) ≤ 40000000000000 := by exact_mod_cast hf
      norm_num
      linarith)]
    rfl
  rw [this]
  rfl

/-- The matrix with the rows (1, 2, 3), (7, 4, 5), (24, 6, 7): the column (7, 24) becomes (-25, 0). -/
example : (match zMatToHessenberg (K := ℚ) (fun x => if x = 625 then 25 else if x = 1600 then 40 else 0) 0 1 3
      (fun i j => if j = 0 then (if i = 0 then 1 else if i = 1 then 7 else 24) else if i = 0 then (j : ℚ) + 1 else (i : ℚ) * 2 + j + 1) with
    | .ok (h, p) => decide (h 0 0 = 1 ∧ h 1 0 = -25 ∧ h 2 0 = 0 ∧ p 0 0 = 1 ∧ p 1 1 = -(7 / 25) ∧ p 2 1 = -(24 / 25) ∧ h 0 1 = -(86 / 25))
    | _ => false) = true := by decide +kernel

/-! ## Power method -/

theorem powerLoop_spec (sqrt : K → K) (hq : SqrtOk sqrt) (tol : K) (ht : 0 ≤ tol) (n : Nat) (m : Nat → Nat → K) (k : Nat) (s : PS K)
    (h : (∀ i, i < n → s.ev i = 0) ∨ ∑ i ∈ range n, s.ev i * s.ev i = 1) (hd : s.done = false) :
    ((∀ i, i < n → (powerLoop sqrt tol n m k s).ev i = 0) ∨ ∑ i ∈ range n, (powerLoop sqrt tol n m k s).ev i * (powerLoop sqrt tol n m k s).ev i = 1) ∧
    ((powerLoop sqrt tol n m k s).done = true →
      (∀ i, i < n → (powerLoop sqrt tol n m k s).x i = ∑ j ∈ range n, m i j * (powerLoop sqrt tol n m k s).ev j) ∧
      (powerLoop sqrt tol n m k s).val = ∑ i ∈ range n, (powerLoop sqrt tol n m k s).ev i * ∑ j ∈ range n, m i j * (powerLoop sqrt tol n m k s).ev j ∧
      ∀ i, i < n → |∑ j ∈ range n, m i j * (powerLoop sqrt tol n m k s).ev j - (powerLoop sqrt tol n m k s).val * (powerLoop sqrt tol n m k s).ev i| ≤ tol) := by
  induction k generalizing s with
  | zero => exact ⟨h, fun g => by simp only [powerLoop, hd] at g; cases g⟩
  | succ k ih =>
    unfold powerLoop
    dsimp only
    have hev : (∀ i, i < n → normalize sqrt tol n s.x s.ev i = 0) ∨ ∑ i ∈ range n, normalize sqrt tol n s.x s.ev i * normalize sqrt tol n s.x s.ev i = 1 := by
      unfold normalize
      rw [inner_spec]
      by_cases g : |sqrt (∑ k ∈ range n, s.x k * s.x k)| ≤ tol
      · rw [if_pos g]; exact h
      · right
        rw [if_neg g]
        obtain ⟨q1, q2⟩ := hq _ (sum_nonneg fun k (_ : k ∈ range n) => mul_self_nonneg (s.x k))
        have hne : sqrt (∑ k ∈ range n, s.x k * s.x k) ≠ 0 := fun e => g (by rw [e, abs_zero]; exact ht)
        generalize hS : sqrt (∑ k ∈ range n, s.x k * s.x k) = l at q2 hne
        rw [sum_congr rfl fun i hi => show _ = s.x i * s.x i * (1 / (l * l)) by rw [if_pos (mem_range.1 hi)]; field_simp]
        rw [← sum_mul, ← q2]
        field_simp
    generalize normalize sqrt tol n s.x s.ev = ev at hev
    have hx : ∀ i, i < n → mulVec n n m ev s.x i = ∑ j ∈ range n, m i j * ev j := by
      intro i hi
      rw [mulVec_spec]
      first | rw [if_pos hi] | skip
      rfl
    have hv : inner n ev (mulVec n n m ev s.x) = ∑ i ∈ range n, ev i * ∑ j ∈ range n, m i j * ev j := by
      rw [inner_spec]
      exact sum_congr rfl fun i hi => by rw [hx i (mem_range.1 hi)]
    by_cases g : ∀ i, i < n → |mulVec n n m ev s.x i + -inner n ev (mulVec n n m ev s.x) * ev i| ≤ tol
    · rw [if_pos g]
      refine ⟨hev, fun _ => ⟨hx, hv, fun i hi => ?_⟩⟩
      have := g i hi
      rw [hx i hi, neg_mul, ← sub_eq_add_neg] at this
      exact this
    · rw [if_neg g]
      exact ih ⟨_, ev, _, false⟩ hev rfl

/-- **C108.** If the power method stops by its test, the value is the Rayleigh quotient of the normalised vector, the pair
satisfies the eigenequation up to the tolerance, and the vector delivered is the image divided by the value.  The normalised
vector has length one unless no iterate was long enough to be normalised. -/
theorem zMatEigPower_correct_partial (sqrt : K → K) (hq : SqrtOk sqrt) (tol : K) (ht : 0 ≤ tol) (n : Nat) (m : Nat → Nat → K) (iter : Int) (x0 : Nat → K) :
    ∀ val x ev, zMatEigPower sqrt tol n m iter x0 = (val, x, ev, true) →
      ((∀ i, i < n → ev i = 0) ∨ ∑ i ∈ range n, ev i * ev i = 1) ∧
      val = ∑ i ∈ range n, ev i * ∑ j ∈ range n, m i j * ev j ∧
      (∀ i, i < n → |∑ j ∈ range n, m i j * ev j - val * ev i| ≤ tol) ∧
      (val ≠ 0 → ∀ i, i < n → |x i - ev i| ≤ tol / |val|) := by
  intro val x ev h
  unfold zMatEigPower at h
  dsimp only at h
  obtain ⟨e1, e2⟩ := powerLoop_spec sqrt hq tol ht n m (OneD.iterInit iter) ⟨x0, fun _ => 0, 1, false⟩ (Or.inl fun _ _ => rfl) rfl
  generalize powerLoop sqrt tol n m (OneD.iterInit iter) ⟨x0, fun _ => 0, 1, false⟩ = s at h e1 e2
  rw [Prod.mk.injEq, Prod.mk.injEq, Prod.mk.injEq] at h
  obtain ⟨rfl, rfl, rfl, h⟩ := h
  obtain ⟨f1, f2, f3⟩ := e2 h
  refine ⟨e1, f2, f3, fun hv i hi => ?_⟩
  rw [if_neg hv, f1 i hi]
  have hv' : 0 < |s.val| := abs_pos.2 hv
  rw [le_div_iff₀ hv', ← abs_mul]
  have : ((∑ j ∈ range n, m i j * s.ev j) * (1 / s.val) - s.ev i) * s.val = ∑ j ∈ range n, m i j * s.ev j - s.val * s.ev i := by field_simp
  rw [this]
  exact f3 i hi

/-- The matrix ((2, 0), (0, 1)) from the vector (3, 0): the eigenvalue 2. -/
example : (match zMatEigPower (K := ℚ) (fun x => if x = 9 then 3 else 1) (1 / 10 ^ 12) 2 (fun i j => if i = 0 ∧ j = 0 then 2 else if i = 1 ∧ j = 1 then 1 else 0) 5
      (fun i => if i = 0 then 3 else 0) with
    | (val, x, _, done) => decide (val = 2 ∧ x 0 = 1 ∧ x 1 = 0 ∧ done = true)) = true := by decide +kernel

/-- **C108 is violated**: not every result is dominant.  From an initial vector in another eigenspace, (0, 3), the value is 1. -/
theorem zMatEigPower_violated_dominant :
    (match zMatEigPower (K := ℚ) (fun x => if x = 9 then 3 else 1) (1 / 10 ^ 12) 2 (fun i j => if i = 0 ∧ j = 0 then 2 else if i = 1 ∧ j = 1 then 1 else 0) 5
      (fun i => if i = 0 then 0 else 3) with
    | (val, x, _, done) => decide (val = 1 ∧ x 0 = 0 ∧ x 1 = 1 ∧ done = true)) = true := by decide +kernel

/-! ## Accesses outside of the matrix -/

/-- **C109 is violated**: the range of the bisection reads the element behind the last one, for every matrix. -/
theorem bisecRange_violated (n : Nat) (hn : 0 < n) (a : Nat → K) : bisecRange n a = .ub := by
  obtain ⟨n, rfl⟩ : ∃ k, n = k + 1 := ⟨n - 1, by omega⟩
  unfold bisecRange
  rw [forUpM_split (mid := n) (by omega) (by omega)]
  have rd : ∀ i j, i < n + 1 → j < n + 1 → rdm (n+1) a i j = .ok (a (i * (n+1) + j)) := by
    intro i j hi hj
    unfold rdm
    rw [if_pos]
    have : i * (n+1) ≤ n * (n+1) := Nat.mul_le_mul_right _ (by omega)
    have e : (n+1) * (n+1) = n * (n+1) + (n+1) := by ring
    omega
  obtain ⟨t, e1, -⟩ := forUpM_ok (lo := 0) (hi := n) (fun i (t : K × K × K) =>
    (if i < n + 1 then (rdm (n+1) a i (i+1)).bind fun x => .ok |x| else .ok 0).bind fun mr =>
    (rdm (n+1) a i i).bind fun d =>
    .ok (if d - (t.2.2 + mr) < t.1 then d - (t.2.2 + mr) else t.1, if d + (t.2.2 + mr) > t.2.1 then d + (t.2.2 + mr) else t.2.1, mr)) (0, 0, 0)
    (fun _ _ => True) (by omega) trivial (by
      intro i t _ hi _
      rw [if_pos (by omega), rd i (i+1) (by omega) (by omega), rd i i (by omega) (by omega)]
      exact ⟨_, rfl, trivial⟩)
  rw [e1]
  dsimp only [Res.bind]
  rw [forUpM_cons (by omega), if_pos (by omega)]
  have : rdm (n+1) a n (n+1) = .ub := by
    unfold rdm
    rw [if_neg]
    have e : (n+1) * (n+1) = n * (n+1) + (n+1) := by ring
    omega
  rw [this]
  rfl

/-- **C109 is violated**: the last reflection of a step of the double QR method on the full matrix addresses the row behind the
last one. -/
theorem dqrHouseholder_violated (sqrt : K → K) (n : Nat) (hn : 2 ≤ n) (g1 g2 g3 : K) (a : Nat → K) : dqrHouseholder sqrt n (n-1) (n-2) g1 g2 g3 a = .ub := by
  unfold dqrHouseholder
  dsimp only
  by_cases g : g1 + (if g1 > 0 then sqrt (g1 * g1 + g2 * g2 + g3 * g3) else -sqrt (g1 * g1 + g2 * g2 + g3 * g3)) = 0
  · rw [if_pos g]
  · rw [if_neg g, forUpM_cons (by omega)]
    have : ∀ (x y z : K), dqrReflect n x y z (n-2, n-2-1) (n-2+1, n-2-1) (n-2+2, n-2-1) a = .ub := by
      intro x y z
      unfold dqrReflect
      have r3 : rdm n a (n-2+2) (n-2-1) = .ub := by
        unfold rdm
        rw [if_neg]
        rw [show n - 2 + 2 = n by omega]
        omega
      dsimp only
      rw [r3]
      unfold rdm
      by_cases c1 : (n - 2) * n + (n - 2 - 1) < n * n
      · by_cases c2 : (n - 2 + 1) * n + (n - 2 - 1) < n * n
        · rw [if_pos c1, if_pos c2]; rfl
        · rw [if_pos c1, if_neg c2]; rfl
      · rw [if_neg c1]; rfl
    rw [this]
    rfl

/-- A computation whose last step is undefined delivers nothing. -/
theorem bind_ne_ok {α β : Type*} (x : Res α) (f : α → Res β) (h : ∀ a b, f a ≠ .ok b) (b : β) : x.bind f ≠ .ok b := by
  cases x with
  | ok a => exact h a b
  | fail => intro e; cases e
  | ub => intro e; cases e

theorem dqrStep_violated (sqrt : K → K) (n : Nat) (hn : 2 ≤ n) (a a' : Nat → K) : dqrStep sqrt n (n-1) a ≠ .ok a' := by
  unfold dqrStep
  repeat (refine bind_ne_ok _ _ (fun _ => ?_) _; intro _; first | dsimp only | skip)
  rw [show n - 1 - 1 = n - 2 by omega, dqrHouseholder_violated sqrt n hn]
  intro e
  cases e

/-- **C109 is violated**: the double QR method delivers no eigenvalues of a matrix of three or more rows unless one of the last
two elements of the subdiagonal of its Hessenberg form vanishes at the start. -/
theorem dqrLoop_violated {C : Type*} (sqrt : K → K) (tol : K) (re : K → C) (qe : K → K → K → C × C) (n : Nat) (fuel : Nat) (a : Nat → K) (ev ev' : Nat → C)
    (h1 : tol < |a ((n+2) * (n+3) + (n+1))|) (h2 : tol < |a ((n+1) * (n+3) + n)|) : dqrLoop sqrt tol re qe (n+3) fuel (n+3) a ev ≠ .ok ev' := by
  cases fuel with
  | zero => intro e; cases e
  | succ fuel =>
    have rd : ∀ i j, i < n + 3 → j < n + 3 → rdm (n+3) a i j = .ok (a (i * (n+3) + j)) := by
      intro i j hi hj
      unfold rdm
      rw [if_pos]
      have : i * (n+3) ≤ (n+2) * (n+3) := Nat.mul_le_mul_right _ (by omega)
      have e : (n+3) * (n+3) = (n+2) * (n+3) + (n+3) := by ring
      omega
    unfold dqrLoop
    rw [rd (n+1+1) (n+1) (by omega) (by omega), rd (n+1+1) (n+1+1) (by omega) (by omega)]
    dsimp only [Res.bind]
    rw [if_neg (not_le.2 h1), rd (n+1) (n+1) (by omega) (by omega), rd (n+1) (n+1+1) (by omega) (by omega), if_neg (by omega), show n + 1 - 1 = n by omega, rd (n+1) n (by omega) (by omega)]
    dsimp only [Res.bind]
    rw [if_neg (by simpa using h2)]
    cases h : dqrStep sqrt (n+3) (n+1+1) a with
    | ok a' => exact absurd h (dqrStep_violated sqrt (n+3) (by omega) a a')
    | fail => intro e; cases e
    | ub => intro e; cases e

/-- **C109.** For matrices of two rows the values have the trace as their sum and the determinant as their product, if `zQESolve`
delivers the roots of the quadratic equation. -/
theorem dqrLoop_two_partial {C : Type*} [CommRing C] (sqrt : K → K) (re : K →+* C) (qe : K → K → K → C × C) (hq : ∀ b c, (qe 1 b c).1 + (qe 1 b c).2 = -re b ∧ (qe 1 b c).1 * (qe 1 b c).2 = re c)
    (fuel : Nat) (a : Nat → K) (ev : Nat → C) :
    ∃ ev', dqrLoop sqrt 0 re qe 2 (fuel+2) 2 a ev = .ok ev' ∧ ev' 0 + ev' 1 = re (a 0 + a 3) ∧ ev' 0 * ev' 1 = re (a 0 * a 3 - a 1 * a 2) := by
  have rd : ∀ i j, i < 2 → j < 2 → rdm 2 a i j = .ok (a (i * 2 + j)) := fun i j hi hj => if_pos (by omega)
  unfold dqrLoop
  rw [rd (0+1) 0 (by omega) (by omega), rd (0+1) (0+1) (by omega) (by omega)]
  dsimp only [Res.bind]
  by_cases g : |a ((0+1)*2 + 0)| ≤ 0
  · rw [if_pos g]
    unfold dqrLoop
    rw [rd 0 0 (by omega) (by omega)]
    have z : a 2 = 0 := abs_eq_zero.1 (le_antisymm g (abs_nonneg _))
    refine ⟨_, rfl, ?_, ?_⟩
    · rw [set1_same, set1_ne _ _ (by omega), set1_same, ← map_add]
    · rw [set1_same, set1_ne _ _ (by omega), set1_same, ← map_mul, z, mul_zero, sub_zero]
  · rw [if_neg g, rd 0 0 (by omega) (by omega), rd 0 (0+1) (by omega) (by omega)]
    dsimp only [Res.bind]
    rw [if_pos rfl]
    dsimp only
    rw [if_pos rfl]
    cases fuel <;>
    · unfold dqrLoop
      obtain ⟨q1, q2⟩ := hq (-a (0*2+0) - a ((0+1)*2+(0+1))) (a (0*2+0) * a ((0+1)*2+(0+1)) - a (0*2+(0+1)) * a ((0+1)*2+0))
      refine ⟨_, rfl, ?_, ?_⟩
      · rw [set1_ne _ _ (by omega), set1_same, set1_same, q1, ← map_neg]
        congr 1
        norm_num
        ring
      · rw [set1_ne _ _ (by omega), set1_same, set1_same, q2]

end Zm.Eig
