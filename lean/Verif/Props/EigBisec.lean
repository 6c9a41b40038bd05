import Verif.Model.EigBisec
import Verif.Props.Spec
import Mathlib.Analysis.Matrix.Spectrum
import Mathlib.LinearAlgebra.FiniteDimensional.Lemmas
import Mathlib.Tactic.Linarith
import Mathlib.Tactic.FieldSimp
import Mathlib.Tactic.LinearCombination

/-! # Bisection of the eigenvalues of symmetric matrices -/

set_option linter.unusedSectionVars false

namespace Zm.Eig
open Zm Finset

/-! ## Specification -/

/-- The matrix of the leading `n` rows and columns. -/
def toMat (n : Nat) (a : Nat → Nat → ℝ) : Matrix (Fin n) (Fin n) ℝ := fun i j => a i j

/-- The matrix is symmetric and vanishes off the three middle diagonals. -/
structure SymTri (n : Nat) (a : Nat → Nat → ℝ) : Prop where
  symm : ∀ i j, i < n → j < n → a i j = a j i
  zero : ∀ i j, i < n → j < n → i + 1 < j → a i j = 0

/-- The numbers `l` are the eigenvalues in descending order: the roots of the characteristic polynomial with their
multiplicities. -/
structure Eigenvalues (n : Nat) (a : Nat → Nat → ℝ) (l : Fin n → ℝ) : Prop where
  desc : ∀ i j : Fin n, i ≤ j → l j ≤ l i
  roots : (toMat n a).charpoly = ∏ i, (Polynomial.X - Polynomial.C (l i))

/-- How many of the numbers exceed `e`. -/
noncomputable def above {n : Nat} (l : Fin n → ℝ) (e : ℝ) : Nat := (univ.filter fun i => e < l i).card

/-! ## Inertia -/

theorem inertia {n : Nat} (a b : Fin n → ℝ) (f : (Fin n → ℝ) →ₗ[ℝ] (Fin n → ℝ)) (g : (Fin n → ℝ) ≃ₗ[ℝ] (Fin n → ℝ))
    (h : ∀ x, ∑ i, a i * (f x i)^2 ≤ ∑ i, b i * (g x i)^2) :
    (univ.filter fun i => b i < 0).card ≤ (univ.filter fun i => a i < 0).card := by
  by_contra hlt
  rw [not_le] at hlt
  let N := {i : Fin n // b i < 0}
  let M := {i : Fin n // a i < 0}
  let ext : (N → ℝ) →ₗ[ℝ] (Fin n → ℝ) :=
    { toFun := fun y i => if h : b i < 0 then y ⟨i, h⟩ else 0
      map_add' := by intro x y; ext i; by_cases h : b i < 0 <;> simp [h]
      map_smul' := by intro c y; ext i; by_cases h : b i < 0 <;> simp [h] }
  let res : (Fin n → ℝ) →ₗ[ℝ] (M → ℝ) :=
    { toFun := fun y i => y i.1
      map_add' := by intro x y; rfl
      map_smul' := by intro c y; rfl }
  let F : (N → ℝ) →ₗ[ℝ] (M → ℝ) := res ∘ₗ f ∘ₗ g.symm.toLinearMap ∘ₗ ext
  have hk : LinearMap.ker F ≠ ⊥ := by
    apply LinearMap.ker_ne_bot_of_finrank_lt
    rw [Module.finrank_fintype_fun_eq_card, Module.finrank_fintype_fun_eq_card]
    simp only [N, M, Fintype.card_subtype]
    exact hlt
  obtain ⟨y, hy, hy0⟩ := (Submodule.ne_bot_iff _).1 hk
  have hF : ∀ i : M, f (g.symm (ext y)) i.1 = 0 := fun i => congrFun (LinearMap.mem_ker.1 hy) i
  have h1 := h (g.symm (ext y))
  rw [LinearEquiv.apply_symm_apply] at h1
  have h2 : 0 ≤ ∑ i, a i * (f (g.symm (ext y)) i)^2 := by
    apply sum_nonneg
    intro i _
    by_cases hi : a i < 0
    · rw [hF ⟨i, hi⟩]; simp
    · exact mul_nonneg (not_lt.1 hi) (sq_nonneg _)
  have h3 : ∑ i, b i * (ext y i)^2 < 0 := by
    obtain ⟨i0, hi0⟩ : ∃ i, y i ≠ 0 := by
      by_contra hc
      push Not at hc
      exact hy0 (funext hc)
    apply sum_neg'
    · intro i _
      by_cases hi : b i < 0
      · exact mul_nonpos_of_nonpos_of_nonneg hi.le (sq_nonneg _)
      · simp [ext, hi]
    · refine ⟨i0.1, mem_univ _, ?_⟩
      have : ext y i0.1 = y i0 := by simp [ext, i0.2]
      rw [this]
      exact mul_neg_of_neg_of_pos i0.2 (by positivity)
  linarith

/-! ## Coordinates along eigenvectors -/

theorem toMat_symm {n : Nat} {a : Nat → Nat → ℝ} (h : SymTri n a) : (toMat n a).IsHermitian := by
  rw [Matrix.IsHermitian, Matrix.conjTranspose_eq_transpose_of_trivial]
  ext i j
  exact h.symm j i j.2 i.2

theorem above_congr {n : Nat} {l l' : Fin n → ℝ}
    (h : ∏ i, (Polynomial.X - Polynomial.C (l i)) = ∏ i, (Polynomial.X - Polynomial.C (l' i))) (e : ℝ) : above l e = above l' e := by
  have hm : univ.val.map l = univ.val.map l' := by
    have := congrArg Polynomial.roots h
    have key : ∀ l : Fin n → ℝ, (∏ i, (Polynomial.X - Polynomial.C (l i))).roots = univ.val.map l := by
      intro l
      have h1 := Polynomial.roots_multiset_prod_X_sub_C (univ.val.map l)
      rw [← h1]
      congr 1
      rw [Multiset.map_map]
      rfl
    rw [key, key] at this
    exact this
  have key : ∀ l : Fin n → ℝ, above l e = (univ.val.map l).countP (fun x => e < x) := by
    intro l
    rw [Multiset.countP_map]
    rfl
  rw [key, key, hm]

/-- The square length and the form in coordinates along the eigenvectors. -/
theorem eigencoords {n : Nat} {a : Nat → Nat → ℝ} (h : SymTri n a) {l : Fin n → ℝ} (hl : Eigenvalues n a l) :
    ∃ (m : Fin n → ℝ) (g : (Fin n → ℝ) ≃ₗ[ℝ] (Fin n → ℝ)), (∀ e, above m e = above l e) ∧
      (∀ x, ∑ i, (g x i)^2 = ∑ i, (x i)^2) ∧ ∀ x, ∑ i, m i * (g x i)^2 = ∑ i : Fin n, ∑ j : Fin n, x i * a i j * x j := by
  have hA := toMat_symm h
  have hs := hA.spectral_theorem
  rw [Unitary.conjStarAlgAut_apply] at hs
  have hU := hA.eigenvectorUnitary.2
  rw [Matrix.mem_unitaryGroup_iff] at hU
  have ht : star (hA.eigenvectorUnitary : Matrix (Fin n) (Fin n) ℝ) = (hA.eigenvectorUnitary : Matrix (Fin n) (Fin n) ℝ).transpose := by
    ext i j
    simp [Matrix.star_apply]
  rw [ht] at hU hs
  set U := (hA.eigenvectorUnitary : Matrix (Fin n) (Fin n) ℝ)
  have hU' : U.transpose * U = 1 := mul_eq_one_comm.1 hU
  refine ⟨hA.eigenvalues, Matrix.toLin'OfInv hU hU', ?_, ?_, ?_⟩
  · intro e
    apply above_congr
    rw [← hl.roots, hA.charpoly_eq]
    rfl
  · intro x
    have : ∀ y : Fin n → ℝ, ∑ i, (y i)^2 = y ⬝ᵥ y := by intro y; simp [dotProduct, sq]
    rw [this, this]
    show (U.transpose.mulVec x) ⬝ᵥ (U.transpose.mulVec x) = _
    rw [Matrix.dotProduct_mulVec, ← Matrix.mulVec_transpose, Matrix.transpose_transpose, Matrix.mulVec_mulVec, hU, Matrix.one_mulVec]
  · intro x
    have e1 : ∑ i : Fin n, ∑ j : Fin n, x i * a i j * x j = x ⬝ᵥ (toMat n a).mulVec x := by
      simp only [dotProduct, Matrix.mulVec, toMat, mul_sum, mul_assoc]
    have hs' : (toMat n a).mulVec x = (U * Matrix.diagonal hA.eigenvalues * U.transpose).mulVec x := congrArg (fun A => A.mulVec x) hs
    rw [e1, hs', ← Matrix.mulVec_mulVec, ← Matrix.mulVec_mulVec, Matrix.dotProduct_mulVec, ← Matrix.mulVec_transpose]
    show ∑ i, _ * (U.transpose.mulVec x i)^2 = _
    simp only [dotProduct, Matrix.mulVec_diagonal]
    refine sum_congr rfl fun i _ => ?_
    ring

/-! ## The Sturm series -/

/-- The terms of the series. -/
noncomputable def piv (tol e : ℝ) (a : Nat → Nat → ℝ) : Nat → ℝ
  | 0 => e - a 0 0
  | i+1 => e - a (i+1) (i+1) - a (i+1) i * a (i+1) i / (if piv tol e a i = 0 then tol else piv tol e a i)

/-- The terms that are divided by. -/
noncomputable def dvs (tol e : ℝ) (a : Nat → Nat → ℝ) (i : Nat) : ℝ := if piv tol e a i = 0 then tol else piv tol e a i

theorem dvs_ne {tol : ℝ} (ht : 0 < tol) (e : ℝ) (a : Nat → Nat → ℝ) (i : Nat) : dvs tol e a i ≠ 0 := by
  unfold dvs
  split_ifs with h
  · exact ht.ne'
  · exact h

theorem dvs_neg {tol : ℝ} (ht : 0 < tol) (e : ℝ) (a : Nat → Nat → ℝ) (i : Nat) : dvs tol e a i < 0 ↔ piv tol e a i < 0 := by
  unfold dvs
  split_ifs with h
  · rw [h]; constructor <;> intro h' <;> linarith
  · rfl

theorem sturm_loop (tol e : ℝ) (a : Nat → Nat → ℝ) (c : Nat) (k : Nat) :
    forUp 1 (k+1) (sturmStep tol e a) (c, e - a 0 0) = (c + ((Ico 1 (k+1)).filter fun i => piv tol e a i < 0).card, piv tol e a k) := by
  induction k with
  | zero => simp [piv]
  | succ k ih =>
    rw [forUp_succ (by omega), ih]
    unfold sturmStep
    dsimp only
    have hp : e - a (k+1) (k+1) - a (k+1) (k+1-1) * a (k+1) (k+1-1) / (if piv tol e a k = 0 then tol else piv tol e a k) = piv tol e a (k+1) := by
      rw [piv]; rfl
    rw [hp, card_filter, card_filter, sum_Ico_succ_top (show 1 ≤ k+1 by omega)]
    by_cases h : piv tol e a (k+1) < 0
    · rw [if_pos h, if_pos h]
      rfl
    · rw [if_neg h, if_neg h]
      rfl

theorem sturm_eq {tol : ℝ} (ht : 0 < tol) (e : ℝ) (a : Nat → Nat → ℝ) {n : Nat} (hn : 0 < n) :
    sturm tol n a e = (univ.filter fun i : Fin n => dvs tol e a i < 0).card + if e = a 0 0 then 1 else 0 := by
  obtain ⟨k, rfl⟩ : ∃ k, n = k + 1 := ⟨n - 1, by omega⟩
  unfold sturm
  rw [sturm_loop]
  dsimp only
  have h1 : (univ.filter fun i : Fin (k+1) => dvs tol e a i < 0).card = ((range (k+1)).filter fun i => piv tol e a i < 0).card := by
    rw [card_filter, card_filter, sum_range]
    refine sum_congr rfl fun i _ => ?_
    simp only [dvs_neg ht]
  rw [h1, card_filter, card_filter, range_eq_Ico, sum_eq_sum_Ico_succ_bot (show 0 < k+1 by omega)]
  have h0 : piv tol e a 0 = e - a 0 0 := rfl
  rw [h0]
  rcases lt_trichotomy (e - a 0 0) 0 with h | h | h
  · rw [if_pos h.le, if_pos h, if_neg (by intro hh; rw [hh] at h; simp at h)]
    ring
  · rw [if_pos h.le, if_neg (by rw [h]; simp), if_pos (by linarith)]
    ring
  · rw [if_neg (by linarith), if_neg (by linarith), if_neg (by intro hh; rw [hh] at h; simp at h)]
    ring

/-- A vector continued by zeros. -/
def pad {n : Nat} (x : Fin n → ℝ) (i : Nat) : ℝ := if h : i < n then x ⟨i, h⟩ else 0

theorem pad_fin {n : Nat} (x : Fin n → ℝ) (i : Fin n) : pad x i = x i := by simp [pad]

theorem pad_ge {n : Nat} (x : Fin n → ℝ) {i : Nat} (h : n ≤ i) : pad x i = 0 := by simp [pad, show ¬ i < n by omega]

/-- The coordinates in which the form is a sum of squares. -/
noncomputable def lin (tol e : ℝ) (a : Nat → Nat → ℝ) (n : Nat) : (Fin n → ℝ) →ₗ[ℝ] (Fin n → ℝ) where
  toFun x i := x i - a (i+1) i / dvs tol e a i * pad x (i+1)
  map_add' x y := by
    ext i
    have : pad (x + y) (i+1) = pad x (i+1) + pad y (i+1) := by unfold pad; split_ifs <;> simp
    simp only [Pi.add_apply, this]
    ring
  map_smul' c x := by
    ext i
    have : pad (c • x) (i+1) = c * pad x (i+1) := by unfold pad; split_ifs <;> simp
    simp only [Pi.smul_apply, smul_eq_mul, this, RingHom.id_apply]
    ring

theorem lin_inj (tol e : ℝ) (a : Nat → Nat → ℝ) (n : Nat) : Function.Injective (lin tol e a n) := by
  rw [← LinearMap.ker_eq_bot, LinearMap.ker_eq_bot']
  intro x hx
  have h : ∀ i : Fin n, x i - a (i+1) i / dvs tol e a i * pad x (i+1) = 0 := fun i => congrFun hx i
  have main : ∀ k i : Nat, n ≤ i + k → pad x i = 0 := by
    intro k
    induction k with
    | zero => intro i hi; exact pad_ge x (by omega)
    | succ k ih =>
      intro i hi
      by_cases hn : i < n
      · have := h ⟨i, hn⟩
        dsimp only at this
        rw [ih (i+1) (by omega)] at this
        unfold pad
        rw [dif_pos hn]
        linarith
      · exact pad_ge x (by omega)
  ext i
  rw [← pad_fin x i]
  exact main n i (by omega)

/-- The same as an equivalence. -/
noncomputable def linE (tol e : ℝ) (a : Nat → Nat → ℝ) (n : Nat) : (Fin n → ℝ) ≃ₗ[ℝ] (Fin n → ℝ) := LinearEquiv.ofInjectiveEndo _ (lin_inj tol e a n)

theorem linE_apply (tol e : ℝ) (a : Nat → Nat → ℝ) (n : Nat) (x : Fin n → ℝ) (i : Fin n) :
    linE tol e a n x i = x i - a (i+1) i / dvs tol e a i * pad x (i+1) := rfl

/-- Completing the squares. -/
theorem squares {tol : ℝ} (ht : 0 < tol) (e : ℝ) (a : Nat → Nat → ℝ) (x : Nat → ℝ) (m : Nat) :
    ∑ i ∈ range m, dvs tol e a i * (x i - a (i+1) i / dvs tol e a i * x (i+1))^2 =
      ∑ i ∈ range m, ((e - a i i + if piv tol e a i = 0 then tol else 0) * (x i)^2 - 2 * a (i+1) i * x i * x (i+1)) +
        if m = 0 then 0 else a m (m-1) * a m (m-1) / dvs tol e a (m-1) * (x m)^2 := by
  induction m with
  | zero => simp
  | succ m ih =>
    rw [sum_range_succ, sum_range_succ, ih, if_neg (Nat.succ_ne_zero m), Nat.add_sub_cancel]
    have hd := dvs_ne ht e a m
    have hq : dvs tol e a m = e - a m m + (if piv tol e a m = 0 then tol else 0) - if m = 0 then 0 else a m (m-1) * a m (m-1) / dvs tol e a (m-1) := by
      unfold dvs
      cases m with
      | zero =>
        have h0 : piv tol e a 0 = e - a 0 0 := rfl
        simp only [if_true]
        by_cases h : piv tol e a 0 = 0
        · rw [if_pos h, if_pos h]; linarith
        · rw [if_neg h, if_neg h]; linarith
      | succ m =>
        rw [if_neg (Nat.succ_ne_zero m), Nat.add_sub_cancel]
        have : piv tol e a (m+1) = e - a (m+1) (m+1) - a (m+1) m * a (m+1) m / (if piv tol e a m = 0 then tol else piv tol e a m) := by rw [piv]
        by_cases h : piv tol e a (m+1) = 0
        · rw [if_pos h, if_pos h]; linarith
        · rw [if_neg h, if_neg h]; linarith
    set w := dvs tol e a m
    have h1 : w * (x m - a (m+1) m / w * x (m+1))^2 = w * (x m)^2 - 2 * a (m+1) m * x m * x (m+1) + a (m+1) m * a (m+1) m / w * (x (m+1))^2 := by
      field_simp
      ring
    rw [h1]
    nth_rewrite 1 [hq]
    split_ifs <;> ring

/-- The form of a tridiagonal matrix. -/
theorem tri_form {n : Nat} {a : Nat → Nat → ℝ} (h : SymTri n a) (x : Nat → ℝ) (m : Nat) (hm : m ≤ n) :
    ∑ i ∈ range m, ∑ j ∈ range m, x i * a i j * x j = ∑ i ∈ range m, a i i * (x i)^2 + 2 * ∑ i ∈ range (m-1), a (i+1) i * x i * x (i+1) := by
  induction m with
  | zero => simp
  | succ m ih =>
    have hcol : ∑ i ∈ range m, x i * a i m * x m = if m = 0 then 0 else a m (m-1) * x (m-1) * x m := by
      cases m with
      | zero => simp
      | succ m =>
        rw [sum_range_succ, sum_eq_zero, if_neg (Nat.succ_ne_zero m), Nat.add_sub_cancel, h.symm m (m+1) (by omega) (by omega)]
        · ring
        · intro i hi
          rw [mem_range] at hi
          rw [h.zero i (m+1) (by omega) (by omega) (by omega)]
          ring
    have hrow : ∑ j ∈ range m, x m * a m j * x j = ∑ i ∈ range m, x i * a i m * x m := by
      refine sum_congr rfl fun i hi => ?_
      rw [mem_range] at hi
      rw [h.symm m i (by omega) (by omega)]
      ring
    rw [sum_range_succ]
    have e1 : ∑ i ∈ range m, ∑ j ∈ range (m+1), x i * a i j * x j = ∑ i ∈ range m, ∑ j ∈ range m, x i * a i j * x j + ∑ i ∈ range m, x i * a i m * x m := by
      rw [← sum_add_distrib]
      exact sum_congr rfl fun i _ => sum_range_succ _ _
    rw [e1, ih (by omega), sum_range_succ _ m, sum_range_succ _ m, hrow, hcol, Nat.add_sub_cancel]
    cases m with
    | zero => simp; ring
    | succ m =>
      rw [if_neg (Nat.succ_ne_zero m), Nat.add_sub_cancel, sum_range_succ (fun i => a (i+1) i * x i * x (i+1)) m]
      ring

/-- The sum of squares is the form of `e - T`, increased on the diagonal where a term vanishes. -/
theorem lin_form {tol : ℝ} (ht : 0 < tol) (e : ℝ) {n : Nat} {a : Nat → Nat → ℝ} (h : SymTri n a) (x : Fin n → ℝ) :
    ∑ i : Fin n, dvs tol e a i * (linE tol e a n x i)^2 =
      e * ∑ i, (x i)^2 - ∑ i : Fin n, ∑ j : Fin n, x i * a i j * x j + ∑ i : Fin n, (if piv tol e a i = 0 then tol else 0) * (x i)^2 := by
  have e1 : ∑ i : Fin n, dvs tol e a i * (linE tol e a n x i)^2 = ∑ i ∈ range n, dvs tol e a i * (pad x i - a (i+1) i / dvs tol e a i * pad x (i+1))^2 := by
    rw [sum_range]
    refine sum_congr rfl fun i _ => ?_
    rw [linE_apply, pad_fin]
  have e2 : ∑ i : Fin n, ∑ j : Fin n, x i * a i j * x j = ∑ i ∈ range n, ∑ j ∈ range n, pad x i * a i j * pad x j := by
    rw [sum_range]
    refine sum_congr rfl fun i _ => ?_
    rw [sum_range]
    refine sum_congr rfl fun j _ => ?_
    rw [pad_fin, pad_fin]
  have e3 : ∑ i, (x i)^2 = ∑ i ∈ range n, (pad x i)^2 := by
    rw [sum_range]
    refine sum_congr rfl fun i _ => ?_
    rw [pad_fin]
  have e4 : ∑ i : Fin n, (if piv tol e a i = 0 then tol else 0) * (x i)^2 = ∑ i ∈ range n, (if piv tol e a i = 0 then tol else 0) * (pad x i)^2 := by
    rw [sum_range]
    refine sum_congr rfl fun i _ => ?_
    rw [pad_fin]
  rw [e1, e2, e3, e4, squares ht, tri_form h _ n le_rfl]
  have e5 : (if n = 0 then 0 else a n (n-1) * a n (n-1) / dvs tol e a (n-1) * (pad x n)^2) = 0 := by
    rw [pad_ge x le_rfl]; simp
  have e6 : ∑ i ∈ range (n-1), a (i+1) i * pad x i * pad x (i+1) = ∑ i ∈ range n, a (i+1) i * pad x i * pad x (i+1) := by
    cases n with
    | zero => simp
    | succ n => rw [Nat.add_sub_cancel, sum_range_succ, pad_ge x le_rfl]; simp
  rw [e5, e6, add_zero, mul_sum, mul_sum, ← sum_add_distrib, ← sum_sub_distrib, ← sum_add_distrib]
  refine sum_congr rfl fun i _ => ?_
  ring

/-- The series counts the eigenvalues above `e`: at most all of them, and at least those above `e + tol`. -/
theorem sturm_count {tol : ℝ} (ht : 0 < tol) (e : ℝ) {n : Nat} (hn : 0 < n) {a : Nat → Nat → ℝ} (h : SymTri n a) {l : Fin n → ℝ} (hl : Eigenvalues n a l)
    (he : e ≠ a 0 0) : above l (e + tol) ≤ sturm tol n a e ∧ sturm tol n a e ≤ above l e := by
  obtain ⟨m, g, hm, hg1, hg2⟩ := eigencoords h hl
  rw [sturm_eq ht e a hn, if_neg he, add_zero, ← hm, ← hm]
  have hz : ∀ x : Fin n → ℝ, ∑ i : Fin n, (if piv tol e a i = 0 then tol else 0) * (x i)^2 ≤ tol * ∑ i, (x i)^2 := by
    intro x
    rw [mul_sum]
    refine sum_le_sum fun i _ => ?_
    split_ifs
    · exact le_rfl
    · rw [zero_mul]; positivity
  have hz0 : ∀ x : Fin n → ℝ, 0 ≤ ∑ i : Fin n, (if piv tol e a i = 0 then tol else 0) * (x i)^2 := by
    intro x
    refine sum_nonneg fun i _ => ?_
    split_ifs
    · positivity
    · rw [zero_mul]
  have hc : ∀ (c : ℝ) (x : Fin n → ℝ), ∑ i, (c - m i) * (g x i)^2 = c * ∑ i, (x i)^2 - ∑ i : Fin n, ∑ j : Fin n, x i * a i j * x j := by
    intro c x
    rw [← hg2, ← hg1, mul_sum, ← sum_sub_distrib]
    refine sum_congr rfl fun i _ => ?_
    ring
  have hab : ∀ c, above m c = (univ.filter fun i => c - m i < 0).card := by
    intro c
    unfold above
    congr 1
    ext i
    simp
  constructor
  · rw [hab]
    refine inertia (fun i => dvs tol e a i) (fun i => e + tol - m i) (lin tol e a n) g fun x => ?_
    have := lin_form ht e h x
    have e1 : ∑ i : Fin n, dvs tol e a i * (lin tol e a n x i)^2 = ∑ i : Fin n, dvs tol e a i * (linE tol e a n x i)^2 := rfl
    rw [e1, this, hc, add_mul]
    have := hz x
    linarith
  · rw [hab]
    refine inertia (fun i => e - m i) (fun i => dvs tol e a i) g.toLinearMap (linE tol e a n) fun x => ?_
    have e1 : ∑ i, (e - m i) * (g.toLinearMap x i)^2 = ∑ i, (e - m i) * (g x i)^2 := rfl
    rw [e1, lin_form ht e h x, hc]
    have := hz0 x
    linarith

/-- Without vanishing terms the count is exact. -/
theorem sturm_exact {tol : ℝ} (ht : 0 < tol) (e : ℝ) {n : Nat} (hn : 0 < n) {a : Nat → Nat → ℝ} (h : SymTri n a) {l : Fin n → ℝ} (hl : Eigenvalues n a l)
    (he : ∀ i, i < n → piv tol e a i ≠ 0) : sturm tol n a e = above l e := by
  have he0 : e ≠ a 0 0 := fun hc => he 0 hn (by simp [piv, hc])
  refine le_antisymm (sturm_count ht e hn h hl he0).2 ?_
  obtain ⟨m, g, hm, hg1, hg2⟩ := eigencoords h hl
  rw [sturm_eq ht e a hn, if_neg he0, add_zero, ← hm]
  have hab : above m e = (univ.filter fun i => e - m i < 0).card := by
    unfold above
    congr 1
    ext i
    simp
  rw [hab]
  refine inertia (fun i => dvs tol e a i) (fun i => e - m i) (lin tol e a n) g fun x => ?_
  have e1 : ∑ i : Fin n, dvs tol e a i * (lin tol e a n x i)^2 = ∑ i : Fin n, dvs tol e a i * (linE tol e a n x i)^2 := rfl
  have e2 : ∑ i : Fin n, (if piv tol e a i = 0 then tol else 0) * (x i)^2 = 0 := by
    refine sum_eq_zero fun i _ => ?_
    rw [if_neg (he i i.2), zero_mul]
  have e3 : ∑ i, (e - m i) * (g x i)^2 = e * ∑ i, (x i)^2 - ∑ i : Fin n, ∑ j : Fin n, x i * a i j * x j := by
    rw [← hg2, ← hg1, mul_sum, ← sum_sub_distrib]
    refine sum_congr rfl fun i _ => ?_
    ring
  rw [e1, lin_form ht e h x, e2, e3, add_zero]

/-- So it is where no eigenvalue exceeds `e` by less than the tolerance. -/
theorem sturm_gap {tol : ℝ} (ht : 0 < tol) (e : ℝ) {n : Nat} (hn : 0 < n) {a : Nat → Nat → ℝ} (h : SymTri n a) {l : Fin n → ℝ} (hl : Eigenvalues n a l)
    (he : e ≠ a 0 0) (hgap : ∀ i, l i ≤ e ∨ e + tol < l i) : sturm tol n a e = above l e := by
  obtain ⟨h1, h2⟩ := sturm_count ht e hn h hl he
  refine le_antisymm h2 (le_trans (le_of_eq ?_) h1)
  unfold above
  congr 1
  ext i
  simp only [mem_filter, mem_univ, true_and]
  rcases hgap i with h' | h'
  · constructor <;> intro h'' <;> linarith
  · constructor <;> intro h'' <;> linarith

/-! ## Bisection -/

/-- The eigenvalue of index `k` (from zero) exceeds `e` just if more than `k` of them do. -/
theorem lt_above {n : Nat} {l : Fin n → ℝ} (hd : ∀ i j : Fin n, i ≤ j → l j ≤ l i) (e : ℝ) (k : Fin n) : k.1 < above l e ↔ e < l k := by
  constructor
  · intro h
    by_contra hc
    have : above l e ≤ k.1 := by
      have : (univ.filter fun i => e < l i) ⊆ Iio k := by
        intro i hi
        simp only [mem_filter, mem_univ, true_and] at hi
        rw [mem_Iio]
        by_contra hik
        have := hd k i (not_lt.1 hik)
        linarith
      have := card_le_card this
      rw [Fin.card_Iio] at this
      exact this
    omega
  · intro h
    have : Iic k ⊆ univ.filter fun i => e < l i := by
      intro i hi
      rw [mem_Iic] at hi
      simp only [mem_filter, mem_univ, true_and]
      have := hd i k hi
      linarith
    have := card_le_card this
    rw [Fin.card_Iic] at this
    exact this

/-- A count as the Sturm series gives it at the points `P`. -/
def Counts {n : Nat} (tol : ℝ) (l : Fin n → ℝ) (P : ℝ → Prop) (c : ℝ → Nat) : Prop := ∀ e, P e → above l (e + tol) ≤ c e ∧ c e ≤ above l e

/-- The midpoints are among the points `P`. -/
def Mids (P : ℝ → Prop) (emin emax : ℝ) : Prop := ∀ m j : Nat, j ≤ 2^m → P (emin + (emax - emin) * (j / 2^m))

theorem mids_left {P : ℝ → Prop} {emin emax : ℝ} (h : Mids P emin emax) : Mids P emin (emin + 1/2 * (emax - emin)) := by
  intro m j hj
  have := h (m+1) j (by rw [pow_succ]; omega)
  convert this using 1
  rw [pow_succ]
  field_simp
  ring

theorem mids_right {P : ℝ → Prop} {emin emax : ℝ} (h : Mids P emin emax) : Mids P (emin + 1/2 * (emax - emin)) emax := by
  intro m j hj
  have := h (m+1) (2^m + j) (by rw [pow_succ]; omega)
  convert this using 1
  rw [pow_succ]
  push_cast
  field_simp
  ring

theorem mids_mid {P : ℝ → Prop} {emin emax : ℝ} (h : Mids P emin emax) : P (emin + 1/2 * (emax - emin)) := by
  have := h 1 1 (by norm_num)
  convert this using 1
  push_cast
  ring

theorem mids_lo {P : ℝ → Prop} {emin emax : ℝ} (h : Mids P emin emax) : P emin := by
  have := h 0 0 (by norm_num)
  convert this using 1
  push_cast
  ring

theorem mids_hi {P : ℝ → Prop} {emin emax : ℝ} (h : Mids P emin emax) : P emax := by
  have := h 0 1 (by norm_num)
  convert this using 1
  push_cast
  ring

theorem bisecOne_loop {tol : ℝ} (ht : 0 < tol) {n : Nat} {a : Nat → Nat → ℝ} {l : Fin n → ℝ} (hd : ∀ i j : Fin n, i ≤ j → l j ≤ l i)
    {P : ℝ → Prop} (hc : Counts tol l P (sturm tol n a)) (q : Fin n) (k : Nat) :
    ∀ emin emax, emin ≤ emax → Mids P emin emax → sturm tol n a emin = q + 1 → (l q ≤ emax + tol ∨ l q ≤ emin + 3 * tol) →
      |bisecOne tol n a (q+1) k emin emax - l q| ≤ (emax - emin) / 2^k + 3 * tol := by
  induction k with
  | zero =>
    intro emin emax hle hm h1 h2
    unfold bisecOne
    have h3 : emin < l q := (lt_above hd emin q).1 (by have := (hc emin (mids_lo hm)).2; omega)
    rw [pow_zero, div_one, abs_le]
    constructor <;> rcases h2 with h2 | h2 <;> linarith
  | succ k ih =>
    intro emin emax hle hm h1 h2
    unfold bisecOne
    dsimp only
    have h3 : emin < l q := (lt_above hd emin q).1 (by have := (hc emin (mids_lo hm)).2; omega)
    by_cases h : sturm tol n a (emin + 1/2 * (emax - emin)) = q + 1
    · rw [if_pos h]
      refine (ih _ emax (by linarith) (mids_right hm) h ?_).trans (le_of_eq ?_)
      · rcases h2 with h2 | h2
        · exact Or.inl h2
        · right; linarith
      · rw [pow_succ]; field_simp; ring
    · rw [if_neg h]
      refine (ih emin _ (by linarith) (mids_left hm) h1 ?_).trans (le_of_eq ?_)
      · rcases h2 with h2 | h2
        · rcases Nat.lt_or_ge (sturm tol n a (emin + 1/2 * (emax - emin))) (q+1) with h4 | h4
          · left
            by_contra h5
            have := (lt_above hd (emin + 1/2 * (emax - emin) + tol) q).2 (by linarith)
            have := (hc _ (mids_mid hm)).1
            omega
          · right
            by_contra h5
            have h6 : above l (emin + 1/2 * (emax - emin)) ≤ above l (emin + tol) := by
              apply card_le_card
              intro i hi
              simp only [mem_filter, mem_univ, true_and] at hi ⊢
              linarith
            have h7 := (hc _ (mids_mid hm)).2
            have h8 := (hc _ (mids_lo hm)).1
            omega
        · exact Or.inr h2
      · rw [pow_succ]; field_simp; ring

theorem bisecRec_spec {tol γ : ℝ} (ht : 0 < tol) (hγ : 3 * tol ≤ γ) {n : Nat} {a : Nat → Nat → ℝ} {l : Fin n → ℝ} (hd : ∀ i j : Fin n, i ≤ j → l j ≤ l i)
    (hgap : ∀ i j : Fin n, i < j → γ ≤ l i - l j)
    {P : ℝ → Prop} (hc : Counts tol l P (sturm tol n a)) (k : Nat) (W : ℝ) (fuel : Nat) :
    ∀ emin emax nmin nmax eig, emin ≤ emax → emax - emin ≤ W → emax - emin ≤ (γ - tol) * 2^fuel → Mids P emin emax →
      sturm tol n a emin = nmin → sturm tol n a emax = nmax → nmax < nmin →
      ∃ eig', bisecRec tol n a k (fuel+1) emin nmin emax nmax nmax eig = .ok eig' ∧
        (∀ i : Fin n, nmax ≤ i.1 → i.1 < nmin → |eig' i - l i| ≤ W / 2^k + 3 * tol) ∧ ∀ i : Nat, i < nmax ∨ nmin ≤ i → eig' i = eig i := by
  induction fuel with
  | zero =>
    intro emin emax nmin nmax eig hle hW hf hm h1 h2 h12
    unfold bisecRec
    have hmin : nmin ≤ n := by
      rw [← h1]
      refine (hc _ (mids_lo hm)).2.trans ?_
      exact (card_le_univ _).trans (by rw [Fintype.card_fin])
    have b1 : emin < l ⟨nmin - 1, by omega⟩ := (lt_above hd emin _).1 (by have := (hc emin (mids_lo hm)).2; simp only; omega)
    have b2 : l ⟨nmax, by omega⟩ ≤ emax + tol := by
      by_contra h5
      have := (lt_above hd (emax + tol) ⟨nmax, by omega⟩).2 (by linarith)
      have := (hc _ (mids_hi hm)).1
      simp only at *
      omega
    by_cases h : nmin = nmax + 1
    · subst h
      rw [if_pos rfl]
      unfold putEig
      rw [if_pos (by omega)]
      refine ⟨_, rfl, ?_, ?_⟩
      · have hin : nmax < n := by omega
        intro i hi1 hi2
        have : i = ⟨nmax, hin⟩ := Fin.ext (by simp only; omega)
        subst this
        have := bisecOne_loop ht hd hc ⟨nmax, by omega⟩ k emin emax hle hm (by rw [h1]) (Or.inl b2)
        simp only [Int.toNat_natCast, set1_same]
        refine this.trans ?_
        have : (emax - emin) / 2^k ≤ W / 2^k := by gcongr
        linarith
      · intro i hi
        rw [Int.toNat_natCast, set1_ne _ _ (by omega)]
    · exfalso
      have := hgap ⟨nmax, by omega⟩ ⟨nmin - 1, by omega⟩ (by rw [Fin.lt_def]; simp only; omega)
      rw [pow_zero, mul_one] at hf
      linarith
  | succ fuel ih =>
    intro emin emax nmin nmax eig hle hW hf hm h1 h2 h12
    unfold bisecRec
    have hmin : nmin ≤ n := by
      rw [← h1]
      refine (hc _ (mids_lo hm)).2.trans ?_
      exact (card_le_univ _).trans (by rw [Fintype.card_fin])
    have b1 : emin < l ⟨nmin - 1, by omega⟩ := (lt_above hd emin _).1 (by have := (hc emin (mids_lo hm)).2; simp only; omega)
    have b2 : l ⟨nmax, by omega⟩ ≤ emax + tol := by
      by_contra h5
      have := (lt_above hd (emax + tol) ⟨nmax, by omega⟩).2 (by linarith)
      have := (hc _ (mids_hi hm)).1
      simp only at *
      omega
    by_cases h : nmin = nmax + 1
    · subst h
      rw [if_pos rfl]
      unfold putEig
      rw [if_pos (by omega)]
      refine ⟨_, rfl, ?_, ?_⟩
      · have hin : nmax < n := by omega
        intro i hi1 hi2
        have : i = ⟨nmax, hin⟩ := Fin.ext (by simp only; omega)
        subst this
        have := bisecOne_loop ht hd hc ⟨nmax, by omega⟩ k emin emax hle hm (by rw [h1]) (Or.inl b2)
        simp only [Int.toNat_natCast, set1_same]
        refine this.trans ?_
        have : (emax - emin) / 2^k ≤ W / 2^k := by gcongr
        linarith
      · intro i hi
        rw [Int.toNat_natCast, set1_ne _ _ (by omega)]
    · rw [if_neg h]
      dsimp only
      have hg := hgap ⟨nmax, by omega⟩ ⟨nmin - 1, by omega⟩ (by rw [Fin.lt_def]; simp only; omega)
      have he : 1/2 * (emax + emin) = emin + 1/2 * (emax - emin) := by ring
      rw [he]
      have hP := mids_mid hm
      have hl := mids_left hm
      have hr := mids_right hm
      generalize hmid : emin + 1/2 * (emax - emin) = e at *
      have m1 : sturm tol n a e ≤ nmin := by
        rw [← h1]
        refine ((hc e hP).2.trans ?_).trans (hc emin (mids_lo hm)).1
        apply card_le_card
        intro i hi
        simp only [mem_filter, mem_univ, true_and] at hi ⊢
        linarith
      have m2 : nmax ≤ sturm tol n a e := by
        rw [← h2]
        refine ((hc emax (mids_hi hm)).2.trans ?_).trans (hc e hP).1
        apply card_le_card
        intro i hi
        simp only [mem_filter, mem_univ, true_and] at hi ⊢
        linarith
      generalize hme : sturm tol n a e = me at *
      rw [pow_succ] at hf
      have s1 : ∃ eig1, (if me > nmax then bisecRec tol n a k (fuel+1) e me emax nmax nmax eig else .ok eig) = Res.ok eig1 ∧
          (∀ i : Fin n, nmax ≤ i.1 → i.1 < me → |eig1 i - l i| ≤ W / 2^k + 3 * tol) ∧ ∀ i : Nat, i < nmax ∨ me ≤ i → eig1 i = eig i := by
        by_cases hb : me > nmax
        · rw [if_pos hb]
          exact ih e emax me nmax eig (by linarith) (by linarith) (by linarith) hr hme h2 hb
        · rw [if_neg hb]
          exact ⟨eig, rfl, fun i _ _ => by omega, fun _ _ => rfl⟩
      obtain ⟨eig1, r1, r2, r3⟩ := s1
      rw [r1]
      simp only [Res.bind]
      have ho : (nmax : Int) + me - nmax = me := by ring
      rw [ho]
      by_cases hb : me < nmin
      · rw [if_pos hb]
        obtain ⟨eig2, t1, t2, t3⟩ := ih emin e nmin me eig1 (by linarith) (by linarith) (by linarith) hl h1 hme hb
        refine ⟨eig2, t1, ?_, ?_⟩
        · intro i i1 i2
          rcases Nat.lt_or_ge i.1 me with i3 | i3
          · rw [t3 i (Or.inl i3)]
            exact r2 i i1 i3
          · exact t2 i i3 i2
        · intro i hi
          rw [t3 i (by omega), r3 i (by omega)]
      · rw [if_neg hb]
        refine ⟨eig1, rfl, ?_, ?_⟩
        · intro i i1 i2
          exact r2 i i1 (by omega)
        · intro i hi
          exact r3 i (by omega)

/-! ## The range -/

/-- What the loop takes for the right neighbour of the diagonal. -/
noncomputable def rightN (g : ℝ) (n : Nat) (a : Nat → Nat → ℝ) (i : Nat) : ℝ := if i + 1 < n then |a i (i+1)| else g

/-- What it takes for the left neighbour. -/
noncomputable def leftN (g : ℝ) (n : Nat) (a : Nat → Nat → ℝ) (i : Nat) : ℝ := if i = 0 then 0 else rightN g n a (i-1)

theorem ends_loop (g : ℝ) (n : Nat) (a : Nat → Nat → ℝ) (k : Nat) :
    let t := forUp 0 k (rangeStep g n a) (0, 0, 0)
    t.2.2 = leftN g n a k ∧ t.1 ≤ 0 ∧ 0 ≤ t.2.1 ∧
      ∀ i, i < k → t.1 ≤ a i i - (leftN g n a i + rightN g n a i) ∧ a i i + (leftN g n a i + rightN g n a i) ≤ t.2.1 := by
  induction k with
  | zero => simp [leftN]
  | succ k ih =>
    rw [forUp_succ (by omega)]
    dsimp only at ih ⊢
    generalize forUp 0 k (rangeStep g n a) (0, 0, 0) = t at ih ⊢
    obtain ⟨i1, i2, i3, i4⟩ := ih
    have hr : (if k + 1 < n then |a k (k+1)| else g) = rightN g n a k := rfl
    unfold rangeStep
    dsimp only
    rw [hr, i1]
    have hmin : ∀ x y : ℝ, (if x < y then x else y) = min x y := by
      intro x y
      split_ifs with h
      · rw [min_eq_left h.le]
      · rw [min_eq_right (not_lt.1 h)]
    have hmax : ∀ x y : ℝ, (if x > y then x else y) = max x y := by
      intro x y
      split_ifs with h
      · rw [max_eq_left h.le]
      · rw [max_eq_right (not_lt.1 h)]
    rw [hmin, hmax]
    refine ⟨by simp [leftN], (min_le_right _ _).trans i2, i3.trans (le_max_right _ _), ?_⟩
    intro i hi
    rcases Nat.lt_or_ge i k with h | h
    · exact ⟨(min_le_right _ _).trans (i4 i h).1, (i4 i h).2.trans (le_max_right _ _)⟩
    · obtain rfl : i = k := by omega
      exact ⟨min_le_left _ _, le_max_left _ _⟩

theorem cross_le {n : Nat} {a : Nat → Nat → ℝ} (h : SymTri n a) (g : ℝ) (x : Nat → ℝ) (m : Nat) (hm : m < n) :
    |2 * ∑ i ∈ range m, a (i+1) i * x i * x (i+1)| ≤ ∑ i ∈ range m, (leftN g n a i + rightN g n a i) * (x i)^2 + leftN g n a m * (x m)^2 := by
  induction m with
  | zero => simp [leftN]
  | succ m ih =>
    rw [sum_range_succ, sum_range_succ, mul_add]
    refine (abs_add_le _ _).trans ?_
    have h1 := ih (by omega)
    have hl : leftN g n a (m+1) = |a (m+1) m| := by
      unfold leftN rightN
      rw [if_neg (Nat.succ_ne_zero m), Nat.add_sub_cancel, if_pos (by omega), h.symm m (m+1) (by omega) (by omega)]
    have hr : rightN g n a m = |a (m+1) m| := by
      unfold rightN
      rw [if_pos (by omega), h.symm m (m+1) (by omega) (by omega)]
    have h2 : |2 * (a (m+1) m * x m * x (m+1))| ≤ |a (m+1) m| * (x m)^2 + |a (m+1) m| * (x (m+1))^2 := by
      rw [abs_mul, abs_mul, abs_mul, abs_of_pos (by norm_num : (0:ℝ) < 2), ← sq_abs (x m), ← sq_abs (x (m+1))]
      nlinarith [sq_nonneg (|x m| - |x (m+1)|), abs_nonneg (a (m+1) m), mul_nonneg (abs_nonneg (a (m+1) m)) (sq_nonneg (|x m| - |x (m+1)|))]
    rw [hl, hr]
    linarith

/-- The range holds all eigenvalues (and zero), whatever is read behind the matrix. -/
theorem bisecEnds_spec {g : ℝ} (hg0 : 0 ≤ g) {n : Nat} (hn : 0 < n) {a : Nat → Nat → ℝ} (h : SymTri n a) {l : Fin n → ℝ} (hl : Eigenvalues n a l) (i : Fin n) :
    (bisecEnds g n a).1 ≤ l i ∧ l i ≤ (bisecEnds g n a).2 := by
  obtain ⟨m, G, hm, hg1, hg2⟩ := eigencoords h hl
  have hloop := ends_loop g n a n
  have hends : bisecEnds g n a = ((forUp 0 n (rangeStep g n a) (0, 0, 0)).1, (forUp 0 n (rangeStep g n a) (0, 0, 0)).2.1) := rfl
  rw [hends]
  dsimp only at hloop ⊢
  generalize forUp 0 n (rangeStep g n a) (0, 0, 0) = t at hloop ⊢
  obtain ⟨-, -, -, hb⟩ := hloop
  -- the form
  have hform : ∀ x : Fin n → ℝ, ∑ i : Fin n, ∑ j : Fin n, x i * a i j * x j ≤ t.2.1 * ∑ i, (x i)^2 ∧ t.1 * ∑ i, (x i)^2 ≤ ∑ i : Fin n, ∑ j : Fin n, x i * a i j * x j := by
    intro x
    have e2 : ∑ i : Fin n, ∑ j : Fin n, x i * a i j * x j = ∑ i ∈ range n, ∑ j ∈ range n, pad x i * a i j * pad x j := by
      rw [sum_range]
      refine sum_congr rfl fun i _ => ?_
      rw [sum_range]
      refine sum_congr rfl fun j _ => ?_
      rw [pad_fin, pad_fin]
    have e3 : ∑ i, (x i)^2 = ∑ i ∈ range n, (pad x i)^2 := by
      rw [sum_range]
      refine sum_congr rfl fun i _ => ?_
      rw [pad_fin]
    rw [e2, e3, tri_form h _ n le_rfl]
    have hx := cross_le h g (pad x) (n-1) (by omega)
    have hs : ∑ i ∈ range (n-1), (leftN g n a i + rightN g n a i) * (pad x i)^2 + leftN g n a (n-1) * (pad x (n-1))^2 ≤ ∑ i ∈ range n, (leftN g n a i + rightN g n a i) * (pad x i)^2 := by
      obtain ⟨k, rfl⟩ : ∃ k, n = k + 1 := ⟨n - 1, by omega⟩
      rw [sum_range_succ, Nat.add_sub_cancel]
      have hr : 0 ≤ rightN g (k+1) a k := by
        unfold rightN
        rw [if_neg (by omega)]
        exact hg0
      have := mul_nonneg hr (sq_nonneg (pad x k))
      linarith
    rw [abs_le] at hx
    constructor
    · have : ∑ i ∈ range n, (a i i + (leftN g n a i + rightN g n a i)) * (pad x i)^2 ≤ t.2.1 * ∑ i ∈ range n, (pad x i)^2 := by
        rw [mul_sum]
        refine sum_le_sum fun i hi => ?_
        rw [mem_range] at hi
        exact mul_le_mul_of_nonneg_right (hb i hi).2 (sq_nonneg _)
      simp only [add_mul, sum_add_distrib] at this hs hx
      linarith
    · have : t.1 * ∑ i ∈ range n, (pad x i)^2 ≤ ∑ i ∈ range n, (a i i - (leftN g n a i + rightN g n a i)) * (pad x i)^2 := by
        rw [mul_sum]
        refine sum_le_sum fun i hi => ?_
        rw [mem_range] at hi
        exact mul_le_mul_of_nonneg_right (hb i hi).1 (sq_nonneg _)
      simp only [sub_mul, add_mul, sum_add_distrib, sum_sub_distrib] at this hs hx
      linarith
  have hc : ∀ (c : ℝ) (x : Fin n → ℝ), ∑ i, (c - m i) * (G x i)^2 = c * ∑ i, (x i)^2 - ∑ i : Fin n, ∑ j : Fin n, x i * a i j * x j := by
    intro c x
    rw [← hg2, ← hg1, mul_sum, ← sum_sub_distrib]
    refine sum_congr rfl fun i _ => ?_
    ring
  constructor
  · by_contra hlt
    rw [not_le] at hlt
    have k1 : (univ.filter fun i => -(t.1 - m i) < 0).card ≤ (univ.filter fun _ : Fin n => (0:ℝ) < 0).card := by
      refine inertia (fun _ => 0) (fun i => -(t.1 - m i)) LinearMap.id G fun x => ?_
      have := hc t.1 x
      have := (hform x).2
      simp only [neg_mul, zero_mul, sum_const_zero, sum_neg_distrib]
      linarith
    have k2 : above m (l i) = n := by
      have : (univ.filter fun j => l i < m j) = univ := by
        ext j
        simp only [mem_filter, mem_univ, true_and, iff_true]
        by_contra hj
        have : j ∈ univ.filter fun i => -(t.1 - m i) < 0 := by
          simp only [mem_filter, mem_univ, true_and]
          linarith
        have := card_pos.2 ⟨j, this⟩
        rw [filter_false_of_mem (fun _ _ => lt_irrefl _), card_empty] at k1
        omega
      unfold above
      rw [this, card_univ, Fintype.card_fin]
    rw [hm] at k2
    have := (lt_above hl.desc (l i) i).1 (by rw [k2]; exact i.2)
    exact lt_irrefl _ this
  · by_contra hlt
    rw [not_le] at hlt
    have k1 : (univ.filter fun i => t.2.1 - m i < 0).card ≤ (univ.filter fun _ : Fin n => (0:ℝ) < 0).card := by
      refine inertia (fun _ => 0) (fun i => t.2.1 - m i) LinearMap.id G fun x => ?_
      rw [hc t.2.1 x]
      have := (hform x).1
      simp only [zero_mul, sum_const_zero]
      linarith
    have k2 : above m t.2.1 = 0 := by
      have : above m t.2.1 = (univ.filter fun i => t.2.1 - m i < 0).card := by
        unfold above
        congr 1
        ext i
        simp
      rw [this]
      rw [filter_false_of_mem (fun _ _ => lt_irrefl _), card_empty] at k1
      omega
    rw [hm] at k2
    have := (lt_above hl.desc t.2.1 i).2 hlt
    omega

/-- The eigenvalues by bisection: if they are simple, if the least one does not lie on the end of the range and if no point
that is tried equals the first element of the matrix, all of them are found in descending order, as close as the width of the
range after `k` halvings, and the recursion ends. -/
theorem bisecVals_partial {g tol γ : ℝ} (hg : 0 ≤ g) (ht : 0 < tol) (hγ : 3 * tol ≤ γ) {n : Nat} (hn : 0 < n) {a : Nat → Nat → ℝ} (h : SymTri n a)
    {l : Fin n → ℝ} (hl : Eigenvalues n a l) (hgap : ∀ i j : Fin n, i < j → γ ≤ l i - l j)
    (hlow : ∀ i, (bisecEnds g n a).1 + tol < l i)
    (hpts : ∀ m j : Nat, j ≤ 2^m → (bisecEnds g n a).1 + ((bisecEnds g n a).2 - (bisecEnds g n a).1) * (j / 2^m) ≠ a 0 0)
    (k fuel : Nat) (hfuel : (bisecEnds g n a).2 - (bisecEnds g n a).1 ≤ (γ - tol) * 2^fuel) (eig : Nat → ℝ) :
    ∃ eig', bisecVals g tol n a k (fuel+1) eig = .ok eig' ∧
      ∀ i : Fin n, |eig' i - l i| ≤ ((bisecEnds g n a).2 - (bisecEnds g n a).1) / 2^k + 3 * tol := by
  unfold bisecVals
  dsimp only
  have hin := bisecEnds_spec hg hn h hl
  generalize bisecEnds g n a = r at *
  have hc : Counts tol l (fun e => e ≠ a 0 0) (sturm tol n a) := fun e he => sturm_count ht e hn h hl he
  have hm : Mids (fun e => e ≠ a 0 0) r.1 r.2 := hpts
  have h1 : sturm tol n a r.1 = n := by
    have h2 := hc r.1 (mids_lo (P := fun e => e ≠ a 0 0) hm)
    have h3 : above l (r.1 + tol) = n := by
      unfold above
      rw [filter_true_of_mem (fun i _ => hlow i), card_univ, Fintype.card_fin]
    have h4 : above l r.1 ≤ n := (card_le_univ _).trans (by rw [Fintype.card_fin])
    omega
  have h2 : sturm tol n a r.2 = 0 := by
    have h2 := (hc r.2 (mids_hi (P := fun e => e ≠ a 0 0) hm)).2
    have h3 : above l r.2 = 0 := by
      unfold above
      rw [filter_false_of_mem (fun i _ => not_lt.2 (hin i).2), card_empty]
    omega
  have hle : r.1 ≤ r.2 := (hin ⟨0, hn⟩).1.trans (hin ⟨0, hn⟩).2
  obtain ⟨eig', e1, e2, -⟩ := bisecRec_spec ht hγ hl.desc hgap hc k (r.2 - r.1) fuel r.1 r.2 n 0 eig hle le_rfl hfuel hm h1 h2 hn
  rw [h1, h2]
  exact ⟨eig', e1, fun i => e2 i (Nat.zero_le _) i.2⟩

/-! ## Examples -/

/-- The matrix with the rows `p q` and `q r`. -/
def two (p q r : ℝ) : Nat → Nat → ℝ := fun i j => if i = j then (if i = 0 then p else r) else q

theorem two_tri (p q r : ℝ) : SymTri 2 (two p q r) := by
  constructor
  · intro i j hi hj
    unfold two
    by_cases h : i = j
    · rw [h]
    · rw [if_neg h, if_neg (Ne.symm h)]
  · intro i j hi hj h; omega

theorem two_eig {p q r x y : ℝ} (h1 : x + y = p + r) (h2 : x * y = p * r - q * q) (hxy : y ≤ x) : Eigenvalues 2 (two p q r) ![x, y] := by
  constructor
  · intro i j hij
    fin_cases i <;> fin_cases j <;> simp_all
  · rw [Matrix.charpoly_fin_two, Fin.prod_univ_two, Matrix.trace_fin_two, Matrix.det_fin_two]
    have e1 : toMat 2 (two p q r) 0 0 + toMat 2 (two p q r) 1 1 = x + y := by simp [toMat, two, h1]
    have e2 : toMat 2 (two p q r) 0 0 * toMat 2 (two p q r) 1 1 - toMat 2 (two p q r) 0 1 * toMat 2 (two p q r) 1 0 = x * y := by simp [toMat, two, h2]
    rw [e1, e2]
    simp only [Matrix.cons_val_zero, Matrix.cons_val_one, Polynomial.C_add, Polynomial.C_mul]
    ring

/-- The series of the matrix with the rows `5 2` and `2 2`, whose eigenvalues are six and one: one of them exceeds three. -/
example : sturm (1/10) 2 (two 5 2 2) 3 = 1 ∧ above ![(6:ℝ), 1] 3 = 1 := by
  have h : sturm (1/10) 2 (two 5 2 2) 3 = above ![(6:ℝ), 1] 3 :=
    sturm_gap (by norm_num) 3 (by norm_num) (two_tri 5 2 2) (two_eig (by norm_num) (by norm_num) (by norm_num)) (by norm_num [two])
      (by intro i; fin_cases i <;> norm_num)
  have h2 : above ![(6:ℝ), 1] 3 = 1 := by
    unfold above
    rw [show (univ.filter fun i : Fin 2 => (3:ℝ) < ![(6:ℝ), 1] i) = {0} by ext i; fin_cases i <;> norm_num]
    rfl
  exact ⟨h.trans h2, h2⟩

/-- Its range. -/
theorem ex_ends : bisecEnds 0 2 (two 5 2 2) = (0, 7) := by
  norm_num [bisecEnds, forUp, forN, rangeStep, two]

/-- Its eigenvalues by bisection. -/
example (k : Nat) (eig : Nat → ℝ) : ∃ eig', bisecVals 0 (1/10) 2 (two 5 2 2) k 4 eig = .ok eig' ∧ |eig' 0 - 6| ≤ 7 / 2^k + 3/10 ∧ |eig' 1 - 1| ≤ 7 / 2^k + 3/10 := by
  have hl : Eigenvalues 2 (two 5 2 2) ![6, 1] := two_eig (by norm_num) (by norm_num) (by norm_num)
  obtain ⟨e, h1, h2⟩ := bisecVals_partial (g := 0) (tol := 1/10) (γ := 1) le_rfl (by norm_num) (by norm_num) (by norm_num) (two_tri 5 2 2) hl
    (by intro i j hij; fin_cases i <;> fin_cases j <;> simp_all; norm_num) (by intro i; rw [ex_ends]; fin_cases i <;> norm_num)
    (by
      intro m j hj
      rw [ex_ends]
      simp only [two, if_true]
      intro hc
      have h2 : (7:ℝ) * j = 5 * 2^m := by
        field_simp at hc
        linarith
      have h3 : 7 * j = 5 * 2^m := by exact_mod_cast h2
      have h4 : 7 ∣ 5 * 2^m := ⟨j, h3.symm⟩
      have h5 : Nat.Coprime 7 (2^m) := Nat.Coprime.pow_right m (by norm_num)
      have := h5.dvd_of_dvd_mul_right h4
      omega) k 3 (by rw [ex_ends]; norm_num) eig
  rw [ex_ends] at h2
  refine ⟨e, h1, ?_, ?_⟩
  · have := h2 0
    norm_num at this ⊢
    exact this
  · have := h2 1
    norm_num at this ⊢
    exact this

/-! ## Where the code fails -/

/-- At the first element of the matrix the series counts one too many: the eigenvalues of the matrix with the rows `0 1` and
`1 0` are one and minus one, and the series counts two above zero. -/
theorem sturm_first_violated :
    Eigenvalues 2 (two 0 1 0) ![1, -1] ∧ above ![(1:ℝ), -1] 0 = 1 ∧ ∀ tol : ℝ, 0 < tol → sturm tol 2 (two 0 1 0) 0 = 2 := by
  refine ⟨two_eig (by norm_num) (by norm_num) (by norm_num), ?_, ?_⟩
  · unfold above
    rw [show (univ.filter fun i : Fin 2 => (0:ℝ) < ![(1:ℝ), -1] i) = {0} by ext i; fin_cases i <;> norm_num]
    rfl
  · intro tol ht
    simp [sturm, forUp, forN, sturmStep, two, ht]

/-- A diagonal matrix whose second eigenvalue is never stored: one and zero on the diagonal. -/
theorem bisecVals_lost_violated :
    Eigenvalues 2 (two 1 0 0) ![1, 0] ∧ ∀ (g tol : ℝ), 0 ≤ g → g < 1 → 0 < tol → ∀ (k fuel : Nat) (eig : Nat → ℝ),
      ∃ eig', bisecVals g tol 2 (two 1 0 0) k (fuel+1) eig = .ok eig' ∧ eig' 1 = eig 1 := by
  refine ⟨two_eig (by norm_num) (by norm_num) (by norm_num), ?_⟩
  intro g tol hg hg1 ht k fuel eig
  have he : bisecEnds g 2 (two 1 0 0) = (-g, 1) := by
    have h1 : ¬ 1 < g := by linarith
    have h2 : ¬ 0 < g ∨ 0 < g := by tauto
    rcases hg.eq_or_lt with h | h
    · subst h; norm_num [bisecEnds, forUp, forN, rangeStep, two]
    · norm_num [bisecEnds, forUp, forN, rangeStep, two, h, h1]
  have s1 : sturm tol 2 (two 1 0 0) 1 = 1 := by
    norm_num [sturm, forUp, forN, sturmStep, two]
  unfold bisecVals
  dsimp only
  rw [he]
  dsimp only
  rw [s1]
  unfold bisecRec
  rcases hg.eq_or_lt with h | h
  · subst h
    have s0 : sturm tol 2 (two 1 0 0) (-0) = 1 := by norm_num [sturm, forUp, forN, sturmStep, two]
    have s2 : sturm tol 2 (two 1 0 0) (1/2 * (1 + -0)) = 1 := by norm_num [sturm, forUp, forN, sturmStep, two]
    rw [s0, if_neg (by norm_num)]
    dsimp only
    rw [s2]
    exact ⟨eig, by simp [Res.bind], rfl⟩
  · have s0 : sturm tol 2 (two 1 0 0) (-g) = 2 := by
      have : ¬ 0 < -1 + -g := by linarith
      have h3 : -g ≤ 1 := by linarith
      norm_num [sturm, forUp, forN, sturmStep, two, h, h3]
    rw [s0, if_pos rfl]
    unfold putEig
    rw [if_pos (by norm_num)]
    exact ⟨_, rfl, set1_ne _ _ (by norm_num)⟩

/-- The diagonal matrix of two, two and three. -/
def twin : Nat → Nat → ℝ := fun i j => if i = j then (if i = 2 then 3 else 2) else 0

theorem twin_tri : SymTri 3 twin := by
  constructor
  · intro i j _ _
    unfold twin
    by_cases h : i = j
    · rw [h]
    · rw [if_neg h, if_neg (Ne.symm h)]
  · intro i j _ _ h
    unfold twin
    rw [if_neg (by omega)]

theorem twin_sturm {tol e : ℝ} (h2 : e ≠ 2) (h3 : e ≠ 3) : sturm tol 3 twin e = if e < 2 then 3 else if e < 3 then 1 else 0 := by
  have hs : sturm tol 3 twin e = (if e - 2 ≤ 0 then 1 else 0) + (if e - 2 < 0 then 1 else 0) + if e - 3 < 0 then 1 else 0 := by
    unfold sturm
    simp only [forUp, forN, sturmStep, twin]
    norm_num
    split_ifs <;> rfl
  rw [hs]
  rcases lt_trichotomy e 2 with h | h | h
  · rw [if_pos (by linarith), if_pos (by linarith), if_pos (by linarith), if_pos h]
  · exact absurd h h2
  · rw [if_neg (c := e - 2 ≤ 0) (by linarith), if_neg (c := e - 2 < 0) (by linarith), if_neg (c := e < 2) (by linarith)]
    rcases lt_trichotomy e 3 with h' | h' | h'
    · rw [if_pos (by linarith), if_pos h']
    · exact absurd h' h3
    · rw [if_neg (by linarith), if_neg (by linarith)]

theorem twin_loop (tol : ℝ) (k fuel : Nat) : ∀ (m i : Nat) (off : Int) (eig : Nat → ℝ), (3:ℝ) * i / 2^m < 2 → 2 < (3:ℝ) * (i+1) / 2^m → (3:ℝ) * (i+1) / 2^m < 3 →
    bisecRec tol 3 twin k fuel (3 * i / 2^m) 3 (3 * (i+1) / 2^m) 1 off eig = .ub := by
  induction fuel with
  | zero => intros; rfl
  | succ fuel ih =>
    intro m i off eig h1 h2 h3
    unfold bisecRec
    rw [if_neg (by norm_num)]
    dsimp only
    have he : (1/2 * (3 * (i+1) / 2^m + 3 * i / 2^m) : ℝ) = 3 * ((2 * i : Nat) + 1) / 2^(m+1) := by
      push_cast
      rw [pow_succ]
      field_simp
      ring
    have hl : (3 * i / 2^m : ℝ) = 3 * (2 * i : Nat) / 2^(m+1) := by
      push_cast
      rw [pow_succ]
      field_simp
    have hr : (3 * (i+1) / 2^m : ℝ) = 3 * ((2 * i + 1 : Nat) + 1) / 2^(m+1) := by
      push_cast
      rw [pow_succ]
      field_simp
      ring
    have he' : (3 * ((2 * i : Nat) + 1) / 2^(m+1) : ℝ) = 3 * (2 * i + 1 : Nat) / 2^(m+1) := by push_cast; ring
    have hne : (3 * ((2 * i : Nat) + 1) / 2^(m+1) : ℝ) ≠ 2 := by
      intro hc
      have hp : (0:ℝ) < 2^(m+1) := by positivity
      rw [div_eq_iff hp.ne'] at hc
      have h4 : 3 * (2 * i + 1) = 2 * 2^(m+1) := by exact_mod_cast hc
      have h5 : 3 ∣ 2 * 2^(m+1) := ⟨_, h4.symm⟩
      have h6 : Nat.Coprime 3 (2^(m+1)) := Nat.Coprime.pow_right _ (by norm_num)
      have := h6.dvd_of_dvd_mul_right h5
      omega
    have hlt3 : (3 * ((2 * i : Nat) + 1) / 2^(m+1) : ℝ) < 3 := by
      rw [← he]; linarith
    rw [he, twin_sturm hne hlt3.ne]
    by_cases hlt : (3 * ((2 * i : Nat) + 1) / 2^(m+1) : ℝ) < 2
    · rw [if_pos hlt, if_pos (by norm_num), hr, he']
      rw [ih (m+1) (2*i+1) off eig (by rw [← he']; exact hlt) (by rw [← hr]; exact h2) (by rw [← hr]; exact h3)]
      rfl
    · have hgt := lt_of_le_of_ne (not_lt.1 hlt) (Ne.symm hne)
      rw [if_neg hlt, if_pos hlt3, if_neg (by norm_num)]
      simp only [Res.bind]
      rw [if_pos (by norm_num), hl]
      exact ih (m+1) (2*i) _ eig (by rw [← hl]; exact h1) hgt hlt3

/-- With a double eigenvalue the recursion does not end: two, two and three on the diagonal. -/
theorem bisecVals_twin_violated :
    Eigenvalues 3 twin ![3, 2, 2] ∧ ∀ (tol : ℝ), 0 < tol → ∀ (k fuel : Nat) (eig : Nat → ℝ), bisecVals 0 tol 3 twin k fuel eig = .ub := by
  constructor
  · constructor
    · intro i j hij
      fin_cases i <;> fin_cases j <;> simp_all <;> norm_num
    · have : toMat 3 twin = Matrix.diagonal ![2, 2, 3] := by
        ext i j
        fin_cases i <;> fin_cases j <;> norm_num [toMat, twin, Matrix.diagonal]
      rw [this, Matrix.charpoly_diagonal, Fin.prod_univ_three, Fin.prod_univ_three]
      simp
      ring
  · intro tol ht k fuel eig
    have he : bisecEnds 0 3 twin = (0, 3) := by norm_num [bisecEnds, forUp, forN, rangeStep, twin]
    unfold bisecVals
    dsimp only
    rw [he]
    dsimp only
    have s0 : sturm tol 3 twin 0 = 3 := by rw [twin_sturm (by norm_num) (by norm_num)]; norm_num
    have s3 : sturm tol 3 twin 3 = 0 := by norm_num [sturm, forUp, forN, sturmStep, twin]
    have s15 : sturm tol 3 twin (1/2 * (3 + 0)) = 3 := by rw [twin_sturm (by norm_num) (by norm_num)]; norm_num
    have s225 : sturm tol 3 twin (1/2 * (3 + 1/2 * (3 + 0))) = 1 := by rw [twin_sturm (by norm_num) (by norm_num)]; norm_num
    rw [s0, s3]
    cases fuel with
    | zero => rfl
    | succ fuel =>
      unfold bisecRec
      rw [if_neg (by norm_num)]
      dsimp only
      rw [s15, if_pos (by norm_num)]
      cases fuel with
      | zero => rfl
      | succ fuel =>
        unfold bisecRec
        rw [if_neg (by norm_num)]
        dsimp only
        rw [s225, if_pos (by norm_num)]
        cases fuel with
        | zero => rfl
        | succ fuel =>
          have h1 : bisecRec tol 3 twin k (fuel+1) (1/2 * (3 + 1/2 * (3 + 0))) 1 3 0 0 eig = .ok (set1 eig 0 (bisecOne tol 3 twin 1 k (1/2 * (3 + 1/2 * (3 + 0))) 3)) := by
            rw [bisecRec, if_pos (by norm_num)]
            rfl
          rw [h1]
          simp only [Res.bind]
          rw [if_pos (by norm_num)]
          have h2 := twin_loop tol k (fuel+1) 2 2 (0 + (1:Nat) - (0:Nat)) (set1 eig 0 (bisecOne tol 3 twin 1 k (1/2 * (3 + 1/2 * (3 + 0))) 3)) (by norm_num) (by norm_num) (by norm_num)
          have a1 : (3 * (2:Nat) / 2^2 : ℝ) = 1/2 * (3 + 0) := by norm_num
          have a2 : (3 * ((2:Nat) + 1) / 2^2 : ℝ) = 1/2 * (3 + 1/2 * (3 + 0)) := by norm_num
          rw [a1, a2] at h2
          rw [h2]

end Zm.Eig
