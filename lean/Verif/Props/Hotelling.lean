import Verif.Model.LEMore
import Verif.Props.LQ
import Verif.Props.Spec
import Mathlib.LinearAlgebra.Matrix.ToLinearEquiv
import Mathlib.LinearAlgebra.Matrix.DotProduct
import Mathlib.Algebra.Field.Rat
import Mathlib.Algebra.Order.Ring.Rat

/-! # C115: inverse matrix by Hotelling's method -/

set_option linter.unusedSectionVars false

namespace Zm.LE
open Zm Misc Finset
variable {K : Type*} [Field K] [LinearOrder K] [IsStrictOrderedRing K]

/-! ## Matrices of Mathlib -/

/-- The leading `r × c` part of a matrix of the model. -/
def toR (r c : Nat) (m : Nat → Nat → K) : Matrix (Fin r) (Fin c) K := Matrix.of fun i j => m i j

theorem toR_apply (r c : Nat) (m : Nat → Nat → K) (i : Fin r) (j : Fin c) : toR r c m i j = m i j := rfl

theorem toR_mulMM (r n c : Nat) (a b : Nat → Nat → K) : toR r c (mulMM n a b) = toR r n a * toR n c b := by
  ext i j
  rw [Matrix.mul_apply, toR_apply, mulMM, inner_spec, sum_range]
  rfl

theorem toR_mulTMM (r n c : Nat) (a b : Nat → Nat → K) : toR r c (mulTMM n a b) = (toR n r a).transpose * toR n c b := by
  ext i j
  rw [Matrix.mul_apply, toR_apply, mulTMM, inner_spec, sum_range]
  rfl

theorem toR_mulMMT (r n c : Nat) (a b : Nat → Nat → K) : toR r c (mulMMT n a b) = toR r n a * (toR c n b).transpose := by
  ext i j
  rw [Matrix.mul_apply, toR_apply, mulMMT, inner_spec, sum_range]
  rfl

theorem toR_transpose (r c : Nat) (a : Nat → Nat → K) : toR r c (fun i j => a j i) = (toR c r a).transpose := rfl

theorem toR_one (n : Nat) : toR n n (fun i j => if i = j then (1 : K) else 0) = 1 := by
  ext i j
  rw [toR_apply, Matrix.one_apply]
  exact if_congr Fin.ext_iff.symm rfl rfl

theorem matIsTol_iff (tol : K) (r c : Nat) (m : Nat → Nat → K) : matIsTol tol r c m = true ↔ ∀ i j, |toR r c m i j| ≤ tol := by
  unfold matIsTol
  rw [decide_eq_true_iff]
  exact ⟨fun h i j => h i i.2 j j.2, fun h i hi j hj => h ⟨i, hi⟩ ⟨j, hj⟩⟩

theorem matIsTol_zero (r c : Nat) (m : Nat → Nat → K) : matIsTol 0 r c m = true ↔ toR r c m = 0 := by
  rw [matIsTol_iff]
  exact ⟨fun h => Matrix.ext fun i j => abs_nonpos_iff.1 (h i j), fun h i j => by rw [h]; simp⟩

/-- A symmetric matrix whose square vanishes is zero. -/
theorem symm_sq_zero {n : Nat} (E : Matrix (Fin n) (Fin n) K) (hs : E.transpose = E) (h : E * E = 0) : E = 0 := by
  ext i j
  have h1 := congrFun (congrFun h i) i
  rw [Matrix.mul_apply, Matrix.zero_apply] at h1
  have h2 : ∀ k, E k i = E i k := fun k => congrFun (congrFun hs i) k
  simp only [h2] at h1
  exact mul_self_eq_zero.1 ((sum_eq_zero_iff_of_nonneg fun k _ => mul_self_nonneg _).1 h1 j (mem_univ _))

/-! ## The iteration -/

theorem hotStep_toR (n : Nat) (m mc : Nat → Nat → K) : toR n n (hotStep n m mc) = toR n n mc + toR n n mc - toR n n mc * (toR n n m * toR n n mc) := by
  rw [← toR_mulMM, ← toR_mulMM]
  ext i j
  simp only [toR_apply, hotStep, Matrix.sub_apply, Matrix.add_apply]
  ring

/-- The residual `I - m mc` is squared by every turn. -/
theorem hotStep_square (n : Nat) (m mc : Nat → Nat → K) : 1 - toR n n m * toR n n (hotStep n m mc) = (1 - toR n n m * toR n n mc) * (1 - toR n n m * toR n n mc) := by
  rw [hotStep_toR]
  noncomm_ring

/-- What the loop keeps: `mc` is a polynomial of `mᵀ m` times `mᵀ`. -/
def HotOk (n : Nat) (m mc : Nat → Nat → K) : Prop := (toR n n m * toR n n mc).transpose = toR n n m * toR n n mc

theorem hotStep_ok (n : Nat) (m mc : Nat → Nat → K) (h : HotOk n m mc) : HotOk n m (hotStep n m mc) := by
  unfold HotOk at h ⊢
  have e : toR n n m * toR n n (hotStep n m mc) = 1 - (1 - toR n n m * toR n n mc) * (1 - toR n n m * toR n n mc) := by rw [← hotStep_square]; abel
  rw [e, Matrix.transpose_sub, Matrix.transpose_mul, Matrix.transpose_sub, Matrix.transpose_one, h]

theorem hotInit_ok (ztol : K) (n : Nat) (m : Nat → Nat → K) : HotOk n m (hotInit ztol n m) := by
  have key : ∀ c : K, HotOk n m (fun i j => m j i * c) := by
    intro c
    unfold HotOk
    ext i j
    rw [Matrix.transpose_apply, Matrix.mul_apply, Matrix.mul_apply]
    refine sum_congr rfl fun k _ => ?_
    simp only [toR_apply]
    ring
  unfold hotInit
  by_cases h : |matSqrNorm n n m| ≤ ztol
  · rw [if_pos h]
    have := key 1
    simp only [mul_one] at this
    exact this
  · rw [if_neg h]; exact key _

theorem hotLoop_done (tol : K) (n : Nat) (m : Nat → Nat → K) (k : Nat) : ∀ (mc other : Nat → Nat → K) (b : Bool) (im : Nat → Nat → K), HotOk n m mc → hotLoop tol n m k mc other b = (im, true) →
    HotOk n m im ∧ ∀ i j, |(1 - toR n n m * toR n n (hotStep n m im)) i j| ≤ tol := by
  induction k with
  | zero => intro mc other b im _ h; simp [hotLoop] at h
  | succ k ih =>
    intro mc other b im hm h
    unfold hotLoop at h
    dsimp only at h
    by_cases g : matIsTol tol n n (fun i j => mulMM n m (hotStep n m mc) i j - if i = j then 1 else 0) = true
    · rw [if_pos g] at h
      obtain ⟨rfl, -⟩ := Prod.mk.inj h
      refine ⟨hm, fun i j => ?_⟩
      have := (matIsTol_iff tol n n _).1 g i j
      rw [← abs_neg, ← toR_mulMM, ← toR_one]
      simpa [toR_apply] using this
    · rw [if_neg g] at h
      exact ih _ _ _ im (hotStep_ok n m mc hm) h

/-- C115, `zMatInvHotelling` ended by its test: the square of every element of `m im - I` is at most the tolerance.  Missing: the element itself, because
the matrix before the one that has passed the test is returned. -/
theorem zMatInvHotelling_partial (ztol tol : K) (iter n : Nat) (m im : Nat → Nat → K) (h : zMatInvHotelling ztol tol iter n m = (im, true)) (i j : Nat) (hi : i < n) (hj : j < n) :
    (∑ k ∈ range n, m i k * im k j - if i = j then 1 else 0) ^ 2 ≤ tol := by
  obtain ⟨hs, ht⟩ := hotLoop_done tol n m iter _ _ _ im (hotInit_ok ztol n m) h
  have h1 := le_of_abs_le (ht ⟨i, hi⟩ ⟨i, hi⟩)
  rw [hotStep_square, Matrix.mul_apply] at h1
  have hsym : ∀ a b, (1 - toR n n m * toR n n im) a b = (1 - toR n n m * toR n n im) b a := by
    intro a b
    have : (1 - toR n n m * toR n n im).transpose = 1 - toR n n m * toR n n im := by
      rw [Matrix.transpose_sub, Matrix.transpose_one, hs]
    exact congrFun (congrFun this b) a
  have h2 : (1 - toR n n m * toR n n im) ⟨i, hi⟩ ⟨j, hj⟩ * (1 - toR n n m * toR n n im) ⟨j, hj⟩ ⟨i, hi⟩ ≤ tol :=
    le_trans (single_le_sum (f := fun k => (1 - toR n n m * toR n n im) ⟨i, hi⟩ k * (1 - toR n n m * toR n n im) k ⟨i, hi⟩)
      (fun k _ => by rw [hsym k]; exact mul_self_nonneg _) (mem_univ (⟨j, hj⟩ : Fin n))) h1
  rw [hsym ⟨j, hj⟩] at h2
  have e : (1 - toR n n m * toR n n im) ⟨i, hi⟩ ⟨j, hj⟩ = - (∑ k ∈ range n, m i k * im k j - if i = j then 1 else 0) := by
    rw [Matrix.sub_apply, ← toR_mulMM, toR_apply, mulMM, inner_spec, Matrix.one_apply, neg_sub]
    congr 1
    exact if_congr Fin.ext_iff rfl rfl
  rw [e] at h2
  nlinarith

/-- C115 without a tolerance: the inverse matrix. -/
theorem zMatInvHotelling_exact (ztol : K) (iter n : Nat) (m im : Nat → Nat → K) (h : zMatInvHotelling ztol 0 iter n m = (im, true)) (i j : Nat) (hi : i < n) (hj : j < n) :
    ∑ k ∈ range n, m i k * im k j = if i = j then 1 else 0 := by
  have := zMatInvHotelling_partial ztol 0 iter n m im h i j hi hj
  exact sub_eq_zero.1 (pow_eq_zero_iff two_ne_zero |>.1 (le_antisymm this (sq_nonneg _)))

/-- C115: the test never passes for a singular matrix, unless the tolerance is as large as the reciprocal of the size; the function still
returns a matrix as if it had succeeded. -/
theorem zMatInvHotelling_singular (ztol tol : K) (iter n : Nat) (m : Nat → Nat → K) (hm : ∃ z : Nat → K, (∃ i, i < n ∧ z i ≠ 0) ∧ ∀ j, j < n → ∑ i ∈ range n, z i * m i j = 0) (ht : n * tol < 1) :
    (zMatInvHotelling ztol tol iter n m).2 = false := by
  by_contra hd
  rw [Bool.not_eq_false] at hd
  obtain ⟨im, e⟩ : ∃ im, zMatInvHotelling ztol tol iter n m = (im, true) := ⟨_, Prod.ext rfl hd⟩
  obtain ⟨-, h⟩ := hotLoop_done tol n m iter _ _ _ im (hotInit_ok ztol n m) e
  obtain ⟨z, ⟨i0, hi0, hz0⟩, hz⟩ := hm
  let v : Fin n → K := fun i => z i
  have hv : Matrix.vecMul v (toR n n m) = 0 := by
    ext j
    have := hz j j.2
    rw [sum_range] at this
    exact this
  have he : Matrix.vecMul v (1 - toR n n m * toR n n (hotStep n m im)) = v := by
    rw [Matrix.vecMul_sub, Matrix.vecMul_one, ← Matrix.vecMul_vecMul, hv, Matrix.zero_vecMul, sub_zero]
  obtain ⟨p, -, hp⟩ := exists_max_image (univ : Finset (Fin n)) (fun i => |v i|) ⟨⟨i0, hi0⟩, mem_univ _⟩
  have hpos : 0 < |v p| := lt_of_lt_of_le (abs_pos.2 hz0) (hp ⟨i0, hi0⟩ (mem_univ _))
  have h1 : |v p| ≤ ∑ i : Fin n, |v p| * tol := by
    conv_lhs => rw [← he]
    change |∑ i : Fin n, v i * (1 - toR n n m * toR n n (hotStep n m im)) i p| ≤ _
    refine (abs_sum_le_sum_abs _ _).trans (sum_le_sum fun i _ => ?_)
    rw [abs_mul]
    exact mul_le_mul (hp i (mem_univ _)) (h i p) (abs_nonneg _) (abs_nonneg _)
  rw [sum_const, card_univ, Fintype.card_fin, nsmul_eq_mul] at h1
  nlinarith

/-- The loop ends if the residual of one of the next turns is small enough. -/
theorem hotLoop_ends (tol : K) (n : Nat) (m : Nat → Nat → K) (k : Nat) : ∀ (mc other : Nat → Nat → K) (b : Bool),
    (∃ t, t < k ∧ ∀ i j, |((1 - toR n n m * toR n n mc : Matrix (Fin n) (Fin n) K) ^ 2 ^ (t + 1)) i j| ≤ tol) → (hotLoop tol n m k mc other b).2 = true := by
  induction k with
  | zero => rintro _ _ _ ⟨t, ht, -⟩; omega
  | succ k ih =>
    rintro mc other b ⟨t, ht, h⟩
    unfold hotLoop
    dsimp only
    by_cases g : matIsTol tol n n (fun i j => mulMM n m (hotStep n m mc) i j - if i = j then 1 else 0) = true
    · rw [if_pos g]
    · rw [if_neg g]
      apply ih
      cases t with
      | zero =>
        exfalso
        apply g
        rw [matIsTol_iff]
        intro i j
        have := h i j
        rw [zero_add, pow_one, pow_two, ← hotStep_square, ← abs_neg, ← toR_mulMM, ← toR_one] at this
        simpa [toR_apply] using this
      | succ t =>
        refine ⟨t, by omega, fun i j => ?_⟩
        rw [hotStep_square, ← pow_two, ← pow_mul, ← pow_succ']
        exact h i j

theorem matSqrNorm_spec (r c : Nat) (m : Nat → Nat → K) : matSqrNorm r c m = ∑ i : Fin r, ∑ j : Fin c, m i j * m i j := by
  unfold matSqrNorm
  have h := fun i x => forUp_add 0 c (fun j => m i j * m i j) x (Nat.zero_le _)
  simp only [h]
  rw [forUp_add 0 r (fun i => ∑ j ∈ Ico 0 c, m i j * m i j) 0 (Nat.zero_le _), zero_add, ← range_eq_Ico, sum_range]
  refine sum_congr rfl fun i _ => ?_
  rw [← range_eq_Ico, sum_range]

/-- C115: for every regular matrix and every positive tolerance the iteration ends by its test, if the limit of iterations allows it. -/
theorem zMatInvHotelling_converges (ztol tol : ℝ) (ht : 0 < tol) (n : Nat) (m : Nat → Nat → ℝ)
    (hm : ¬ ∃ z : Nat → ℝ, (∃ i, i < n ∧ z i ≠ 0) ∧ ∀ j, j < n → ∑ i ∈ range n, z i * m i j = 0) (hz : ztol < matSqrNorm n n m) (hz0 : 0 ≤ ztol) :
    ∃ N, ∀ iter, N ≤ iter → (zMatInvHotelling ztol tol iter n m).2 = true := by
  have hc : 0 < matSqrNorm n n m := lt_of_le_of_lt hz0 hz
  have hinit : hotInit ztol n m = fun i j => m j i * (1 / matSqrNorm n n m) := by
    unfold hotInit
    rw [if_neg (by rw [abs_of_pos hc]; exact not_le.2 hz)]
  have hsym := hotInit_ok ztol n m
  unfold HotOk at hsym
  have hE : (1 - toR n n m * toR n n (hotInit ztol n m)).transpose = 1 - toR n n m * toR n n (hotInit ztol n m) := by
    rw [Matrix.transpose_sub, Matrix.transpose_one, hsym]
  obtain ⟨U, l, hd⟩ := Spec.exists_diag _ hE
  have hval : ∀ t, l t = 1 - (∑ k : Fin n, (∑ i : Fin n, U i t * m i k) ^ 2) / matSqrNorm n n m := by
    intro t
    rw [hd.value t]
    have e1 : ∀ i j : Fin n, U i t * (1 - toR n n m * toR n n (hotInit ztol n m)) i j * U j t = (if i = j then U i t * U j t else 0) - ∑ k : Fin n, (U i t * m i k) * (U j t * m j k) / matSqrNorm n n m := by
      intro i j
      rw [Matrix.sub_apply, Matrix.one_apply, Matrix.mul_apply, mul_sub, sub_mul, mul_sum, sum_mul]
      congr 1
      · split <;> ring
      · refine sum_congr rfl fun k _ => ?_
        rw [hinit]
        simp only [toR_apply]
        field_simp
    simp only [e1, sum_sub_distrib, sum_ite_eq, mem_univ, if_true]
    rw [hd.unit t, sum_div]
    congr 1
    have e2 : ∀ i : Fin n, ∑ j : Fin n, ∑ k : Fin n, U i t * m i k * (U j t * m j k) / matSqrNorm n n m = ∑ k : Fin n, ∑ j : Fin n, U i t * m i k * (U j t * m j k) / matSqrNorm n n m := fun i => sum_comm
    simp only [e2]
    rw [sum_comm]
    refine sum_congr rfl fun k _ => ?_
    rw [pow_two, sum_mul_sum, sum_div]
    exact sum_congr rfl fun i _ => by rw [sum_div]
  have hl : ∀ t, 0 ≤ l t ∧ l t < 1 := by
    intro t
    rw [hval t]
    constructor
    · rw [sub_nonneg, div_le_one hc, matSqrNorm_spec, sum_comm]
      refine sum_le_sum fun k _ => ?_
      have := sum_mul_sq_le_sq_mul_sq univ (fun i => U i t) (fun i : Fin n => m i k)
      simp only [pow_two] at this ⊢
      rw [hd.unit t, one_mul] at this
      exact this
    · rw [sub_lt_self_iff]
      apply div_pos _ hc
      refine lt_of_le_of_ne (sum_nonneg fun k _ => sq_nonneg _) fun h0 => ?_
      have h1 := (sum_eq_zero_iff_of_nonneg fun k _ => sq_nonneg _).1 h0.symm
      apply hm
      have hne : ∃ i : Fin n, U i t ≠ 0 := by
        by_contra hne
        push Not at hne
        have := hd.unit t
        simp [hne] at this
      obtain ⟨i, hi⟩ := hne
      refine ⟨fun i => if h : i < n then U ⟨i, h⟩ t else 0, ⟨i, i.2, by beta_reduce; rw [dif_pos i.2]; exact hi⟩, fun j hj => ?_⟩
      rw [sum_range]
      have := pow_eq_zero_iff two_ne_zero |>.1 (h1 ⟨j, hj⟩ (mem_univ _))
      refine Eq.trans ?_ this
      exact sum_congr rfl fun i _ => by beta_reduce; rw [dif_pos i.2]
  obtain ⟨N, hN⟩ := hd.small hl tol ht
  refine ⟨N + 1, fun iter hi => hotLoop_ends tol n m iter _ _ _ ⟨N, by omega, hN _ ?_⟩⟩
  exact (Nat.lt_two_pow_self (n := N)).le.trans (Nat.pow_le_pow_right (by omega) (by omega))

/-- C115 is false with a tolerance: for diag(1, 2) and the tolerance 13/20 the matrix that is returned leaves the residual 4/5. -/
theorem zMatInvHotelling_violated : (match zMatInvHotelling (K := ℚ) 0 (13/20) 10 2 (fun i j => if i = j then (if i = 0 then 1 else 2) else 0) with
    | (im, done) => decide (done = true ∧ |1 * im 0 0 - 1| = 4/5)) = true := by decide +kernel

/-- A tolerance that is met, and the bound of the theorem. -/
example : (zMatInvHotelling (K := ℚ) 0 (1/100) 10 2 (fun i j => if i = j then (if i = 0 then 1 else 2) else 0)).2 = true := by decide +kernel

/-- A regular matrix and a tolerance to which the theorem of convergence applies. -/
example : ∃ N, ∀ iter, N ≤ iter → (zMatInvHotelling (0 : ℝ) (1/1000) iter 1 (fun _ _ => 3)).2 = true :=
  zMatInvHotelling_converges 0 _ (by norm_num) 1 _
    (by
      rintro ⟨z, ⟨i, hi, hz⟩, h⟩
      have := h 0 (by omega)
      rw [sum_range_one] at this
      have hi0 : i = 0 := by omega
      rw [hi0] at hz
      exact hz (by linarith))
    (by rw [matSqrNorm_spec]; norm_num) (le_refl _)

/-- A singular matrix. -/
example : ∃ z : Nat → ℚ, (∃ i, i < 2 ∧ z i ≠ 0) ∧ ∀ j, j < 2 → ∑ i ∈ range 2, z i * (1 : ℚ) = 0 :=
  ⟨fun i => if i = 0 then 1 else -1, ⟨0, by omega, by norm_num⟩, fun j _ => by norm_num [sum_range_succ]⟩

end Zm.LE
