import Verif.Props.Misc
import Mathlib.RingTheory.Polynomial.Bernstein
import Mathlib.Analysis.Calculus.Deriv.Polynomial
import Mathlib.Analysis.Calculus.ContDiff.Basic
import Mathlib.Analysis.Calculus.ContDiff.Deriv
import Mathlib.Analysis.Calculus.Deriv.MeanValue

/-! # C219: the smooth step -/

set_option linter.unusedSectionVars false

namespace Zm.Misc
open Zm Polynomial Finset

/-- The polynomial of the smooth step of order `N`, as its coefficients are summed by the code. -/
noncomputable def stepPoly (N : Nat) : ℝ[X] :=
  ∑ k ∈ range (N+1), C ((-1)^k * ((N+k).choose k : ℝ) * ((2*N+1).choose (N-k) : ℝ)) * X^(N+1+k)

/-- The probability of more than `N` heads of `2N+1`, as a polynomial of the probability of one. -/
noncomputable def tailPoly (N : Nat) : ℝ[X] := ∑ v ∈ range (N+1), bernsteinPolynomial ℝ (2*N+1) (N+v+1)

theorem comb_id (N k : Nat) (hk : k ≤ N) :
    ((N+1+k : Nat) : ℝ) * ((N+k).choose k : ℝ) * ((2*N+1).choose (N-k) : ℝ) = (2*N+1) * ((2*N).choose N : ℝ) * (N.choose k : ℝ) := by
  have h : (N+1+k) * (N+k).choose k * (2*N+1).choose (N-k) = (2*N+1) * (2*N).choose N * N.choose k := by
    have e1 := Nat.choose_mul_factorial_mul_factorial (show k ≤ N+k by omega)
    have e2 := Nat.choose_mul_factorial_mul_factorial (show N-k ≤ 2*N+1 by omega)
    have e3 := Nat.choose_mul_factorial_mul_factorial (show N ≤ 2*N by omega)
    have e4 := Nat.choose_mul_factorial_mul_factorial hk
    rw [show N + k - k = N by omega] at e1
    rw [show 2*N+1-(N-k) = N+k+1 by omega] at e2
    rw [show 2*N-N = N by omega] at e3
    rw [Nat.factorial_succ, Nat.factorial_succ] at e2
    have p : 0 < k.factorial * N.factorial * (N-k).factorial * N.factorial := by positivity
    refine Nat.eq_of_mul_eq_mul_right p ?_
    have q : (N+k).factorial ≠ 0 := Nat.factorial_ne_zero _
    calc (N+1+k) * (N+k).choose k * (2*N+1).choose (N-k) * (k.factorial * N.factorial * (N-k).factorial * N.factorial)
        = (2*N+1).choose (N-k) * (N-k).factorial * ((N+k+1) * ((N+k).choose k * k.factorial * N.factorial)) * N.factorial := by ring
      _ = (2*N+1) * (2*N).factorial * N.factorial := by rw [e1, e2]
      _ = (2*N+1) * ((2*N).choose N * N.factorial * N.factorial) * N.factorial := by rw [e3]
      _ = (2*N+1) * ((2*N).choose N * N.factorial * N.factorial) * (N.choose k * k.factorial * (N-k).factorial) := by rw [e4]
      _ = _ := by ring
  exact_mod_cast h

theorem stepPoly_derivative (N : Nat) : derivative (stepPoly N) = C ((2*N+1) * ((2*N).choose N : ℝ)) * (X^N * (1 - X)^N) := by
  have h : (1 - X : ℝ[X])^N = ∑ k ∈ range (N+1), C ((-1)^k * (N.choose k : ℝ)) * X^k := by
    rw [show (1 - X : ℝ[X]) = -X + 1 by ring, add_pow]
    refine sum_congr rfl fun k _ => ?_
    rw [one_pow, mul_one, neg_pow, C_mul, C_pow, C_neg, C_1, C_eq_natCast]
    ring
  rw [h, mul_sum, mul_sum]
  unfold stepPoly
  rw [derivative_sum]
  refine sum_congr rfl fun k hk => ?_
  have := comb_id N k (by simp at hk; omega)
  rw [derivative_C_mul_X_pow, show N + 1 + k - 1 = N + k by omega,
    show (-1)^k * ((N+k).choose k : ℝ) * ((2*N+1).choose (N-k) : ℝ) * ((N+1+k : Nat) : ℝ) = ((2*N+1) * ((2*N).choose N : ℝ)) * ((-1)^k * (N.choose k : ℝ)) by
      linear_combination (-1)^k * this, C_mul, pow_add]
  ring

theorem tailPoly_derivative (N : Nat) : derivative (tailPoly N) = C ((2*N+1) * ((2*N).choose N : ℝ)) * (X^N * (1 - X)^N) := by
  unfold tailPoly
  rw [derivative_sum]
  have : ∀ v ∈ range (N+1), derivative (bernsteinPolynomial ℝ (2*N+1) (N+v+1)) =
      ((2*N+1 : Nat) : ℝ[X]) * (bernsteinPolynomial ℝ (2*N) (N+v) - bernsteinPolynomial ℝ (2*N) (N+(v+1))) := by
    intro v _
    rw [bernsteinPolynomial.derivative_succ]; rfl
  rw [sum_congr rfl this, ← mul_sum, sum_range_sub' (fun v => bernsteinPolynomial ℝ (2*N) (N+v))]
  rw [bernsteinPolynomial.eq_zero_of_lt ℝ (show 2*N < N+(N+1) by omega), sub_zero]
  unfold bernsteinPolynomial
  simp only [Nat.add_zero]
  rw [show 2*N-N = N by omega, C_mul]
  simp only [← C_eq_natCast]
  push_cast
  simp only [C_add, C_mul, C_1]
  ring

theorem stepPoly_eq_tail (N : Nat) : stepPoly N = tailPoly N := by
  have hd : derivative (stepPoly N - tailPoly N) = 0 := by rw [derivative_sub, stepPoly_derivative, tailPoly_derivative, sub_self]
  have h0 := natDegree_eq_zero_of_derivative_eq_zero hd
  obtain ⟨c, hc⟩ := natDegree_eq_zero.mp h0
  have e1 : (stepPoly N).eval 0 = 0 := by simp [stepPoly, eval_finset_sum]
  have e2 : (tailPoly N).eval 0 = 0 := by simp [tailPoly, bernsteinPolynomial, eval_finset_sum]
  have : c = 0 := by
    have := congrArg (eval 0) hc
    rw [eval_C, eval_sub, e1, e2, sub_zero] at this
    exact this
  rw [this, C_0] at hc
  exact sub_eq_zero.mp hc.symm

theorem forUp_sum (f : Nat → ℝ) (n : Nat) : forUp 0 n (fun k (v : ℝ) => v + f k) 0 = ∑ k ∈ range n, f k := by
  refine forUp_inv (fun k (v : ℝ) => v + f k) 0 (fun i v => v = ∑ k ∈ range i, f k) (Nat.zero_le _) (by simp) ?_
  intro i v _ _ h
  rw [h, sum_range_succ]

theorem zSmoothStep_poly (x : ℝ) (N : Nat) : zSmoothStep x N = if x ≤ 0 then 0 else if x ≥ 1 then 1 else (stepPoly N).eval x := by
  unfold zSmoothStep
  by_cases h0 : x ≤ 0
  · rw [if_pos h0, if_pos h0]
  rw [if_neg h0, if_neg h0]
  by_cases h1 : x ≥ 1
  · rw [if_pos h1, if_pos h1]
  rw [if_neg h1, if_neg h1]
  simp only
  rw [forUp_sum, sum_mul]
  unfold stepPoly
  rw [eval_finset_sum]
  refine sum_congr rfl fun k hk => ?_
  have hk' : k ≤ N := by simp at hk; omega
  have c1 : (zCombination ((N : Int) + k) (k : Int) : ℝ) = ((N+k).choose k : ℝ) := by
    have := zCombination_eq (K := ℝ) (N+k) k (by omega); rw [← this]; push_cast; rfl
  have c2 : (zCombination (2 * (N : Int) + 1) ((N : Int) - k) : ℝ) = ((2*N+1).choose (N-k) : ℝ) := by
    have := zCombination_eq (K := ℝ) (2*N+1) (N-k) (by omega); rw [← this]; push_cast [Nat.cast_sub hk']; rfl
  rw [c1, c2, eval_mul, eval_C, eval_pow, eval_X]
  unfold cpow
  rcases Nat.even_or_odd k with hp | hp
  · rw [if_neg (by have := Nat.even_iff.mp hp; omega), hp.neg_one_pow, pow_add]; ring
  · rw [if_pos (by have := Nat.odd_iff.mp hp; omega), hp.neg_one_pow, pow_add]; ring

theorem zSmoothStepDif_poly (x : ℝ) (N : Nat) : zSmoothStepDif x N = if x ≤ 0 ∨ x ≥ 1 then 0 else (2*N+1) * ((2*N).choose N : ℝ) * (x^N * (1-x)^N) := by
  unfold zSmoothStepDif
  by_cases h0 : x ≤ 0 ∨ x ≥ 1
  · rw [if_pos h0, if_pos h0]
  rw [if_neg h0, if_neg h0]
  simp only
  have hd := congrArg (eval x) (stepPoly_derivative N)
  simp only [eval_mul, eval_C, eval_pow, eval_X, eval_sub, eval_one] at hd
  rw [← hd, forUp_sum, sum_mul]
  unfold stepPoly
  rw [derivative_sum, eval_finset_sum]
  refine sum_congr rfl fun k hk => ?_
  have hk' : k ≤ N := by simp at hk; omega
  have c1 : (zCombination ((N : Int) + k) (k : Int) : ℝ) = ((N+k).choose k : ℝ) := by
    have := zCombination_eq (K := ℝ) (N+k) k (by omega); rw [← this]; push_cast; rfl
  have c2 : (zCombination (2 * (N : Int) + 1) ((N : Int) - k) : ℝ) = ((2*N+1).choose (N-k) : ℝ) := by
    have := zCombination_eq (K := ℝ) (2*N+1) (N-k) (by omega); rw [← this]; push_cast [Nat.cast_sub hk']; rfl
  rw [c1, c2, derivative_C_mul_X_pow, eval_mul, eval_C, eval_pow, eval_X, show N+1+k-1 = N+k by omega]
  unfold cpow
  rcases Nat.even_or_odd k with hp | hp
  · rw [if_neg (by have := Nat.even_iff.mp hp; omega), hp.neg_one_pow, pow_add]; push_cast; ring
  · rw [if_pos (by have := Nat.odd_iff.mp hp; omega), hp.neg_one_pow, pow_add]; push_cast; ring

theorem tailPoly_one (N : Nat) : (tailPoly N).eval 1 = 1 := by
  unfold tailPoly
  rw [eval_finset_sum, sum_range_succ, sum_eq_zero]
  · simp [bernsteinPolynomial, show N+N+1 = 2*N+1 by omega]
  · intro v hv
    simp only [mem_range] at hv
    simp only [bernsteinPolynomial, eval_mul, eval_pow, eval_sub, eval_one, eval_X, sub_self]
    rw [zero_pow (by omega), mul_zero]

theorem stepPoly_zero (N : Nat) : (stepPoly N).eval 0 = 0 := by simp [stepPoly, eval_finset_sum]

theorem stepPoly_one (N : Nat) : (stepPoly N).eval 1 = 1 := by rw [stepPoly_eq_tail, tailPoly_one]

/-- C219, the ends. -/
theorem zSmoothStep_ends (N : Nat) : (∀ x : ℝ, x ≤ 0 → zSmoothStep x N = 0) ∧ (∀ x : ℝ, 1 ≤ x → zSmoothStep x N = 1) := by
  constructor
  · intro x hx; rw [zSmoothStep_poly, if_pos hx]
  · intro x hx; rw [zSmoothStep_poly, if_neg (by linarith), if_pos hx]

theorem zSmoothStep_mid (N : Nat) (x : ℝ) (h0 : 0 ≤ x) (h1 : x ≤ 1) : zSmoothStep x N = (stepPoly N).eval x := by
  rw [zSmoothStep_poly]
  rcases eq_or_lt_of_le h0 with h | h
  · rw [if_pos (by linarith), ← h, stepPoly_zero]
  rw [if_neg (by linarith)]
  rcases eq_or_lt_of_le h1 with h' | h'
  · rw [if_pos (by linarith), h', stepPoly_one]
  rw [if_neg (by linarith)]

/-- C219, what it is between the ends: the probability that of `2N+1` throws that succeed with probability `x` more than `N` do. -/
theorem zSmoothStep_binomial (N : Nat) (x : ℝ) (h0 : 0 ≤ x) (h1 : x ≤ 1) :
    zSmoothStep x N = ∑ j ∈ Ico (N+1) (2*N+2), ((2*N+1).choose j : ℝ) * x^j * (1-x)^(2*N+1-j) := by
  rw [zSmoothStep_mid N x h0 h1, stepPoly_eq_tail]
  unfold tailPoly
  rw [eval_finset_sum, sum_Ico_eq_sum_range, show 2*N+2-(N+1) = N+1 by omega]
  refine sum_congr rfl fun v _ => ?_
  rw [show N+1+v = N+v+1 by omega]
  simp [bernsteinPolynomial]

/-- C219, symmetry. -/
theorem zSmoothStep_symm (N : Nat) (x : ℝ) : zSmoothStep x N + zSmoothStep (1-x) N = 1 := by
  by_cases h0 : x ≤ 0
  · rw [(zSmoothStep_ends N).1 x h0, (zSmoothStep_ends N).2 (1-x) (by linarith), zero_add]
  by_cases h1 : 1 ≤ x
  · rw [(zSmoothStep_ends N).2 x h1, (zSmoothStep_ends N).1 (1-x) (by linarith), add_zero]
  rw [zSmoothStep_binomial N x (by linarith) (by linarith), zSmoothStep_binomial N (1-x) (by linarith) (by linarith)]
  have h := (add_pow x (1-x) (2*N+1)).symm
  rw [add_sub_cancel, one_pow] at h
  have e1 : ∑ j ∈ Ico (N+1) (2*N+2), ((2*N+1).choose j : ℝ) * (1-x)^j * (1-(1-x))^(2*N+1-j) = ∑ m ∈ Ico 0 (N+1), x^m * (1-x)^(2*N+1-m) * ((2*N+1).choose m : ℝ) := by
    rw [sum_Ico_eq_sum_range, ← range_eq_Ico, show 2*N+2-(N+1) = N+1 by omega, ← sum_range_reflect]
    refine sum_congr rfl fun j hj => ?_
    simp only [mem_range] at hj
    rw [show N+1+(N+1-1-j) = 2*N+1-j by omega, Nat.choose_symm (by omega), show 2*N+1-(2*N+1-j) = j by omega, show 1-(1-x) = x by ring]
    ring
  have e2 : ∑ j ∈ Ico (N+1) (2*N+2), ((2*N+1).choose j : ℝ) * x^j * (1-x)^(2*N+1-j) = ∑ m ∈ Ico (N+1) (2*N+1+1), x^m * (1-x)^(2*N+1-m) * ((2*N+1).choose m : ℝ) :=
    sum_congr rfl fun j _ => by ring
  rw [e1, e2, add_comm, sum_Ico_consecutive _ (Nat.zero_le (N+1)) (show N+1 ≤ 2*N+1+1 by omega), ← range_eq_Ico, h]

/-- C219, the derivative between the ends in closed form; it is positive. -/
theorem zSmoothStepDif_closed (N : Nat) (x : ℝ) (h0 : 0 < x) (h1 : x < 1) :
    zSmoothStepDif x N = ((2*N+1).factorial : ℝ) / (N.factorial : ℝ)^2 * (x * (1-x))^N ∧ 0 < zSmoothStepDif x N := by
  rw [zSmoothStepDif_poly, if_neg (by push Not; exact ⟨h0, h1⟩)]
  constructor
  · have e3 := Nat.choose_mul_factorial_mul_factorial (show N ≤ 2*N by omega)
    rw [show 2*N-N = N by omega] at e3
    have e4 : ((2*N).choose N : ℝ) * N.factorial * N.factorial = (2*N).factorial := by exact_mod_cast e3
    rw [Nat.factorial_succ, mul_pow]
    have : (N.factorial : ℝ) ≠ 0 := by exact_mod_cast Nat.factorial_ne_zero _
    push_cast
    rw [← e4]
    field_simp
  · have a : (0:ℝ) < (2*N).choose N := by exact_mod_cast Nat.choose_pos (by omega)
    have b : 0 < 1 - x := by linarith
    positivity

/-! ## Smoothness -/

/-- A polynomial between 0 and 1 that joins constants with a zero slope is differentiable everywhere. -/
theorem glue (f : ℝ → ℝ) (P : ℝ[X]) (a b : ℝ) (h0 : ∀ x, x ≤ 0 → f x = a) (hm : ∀ x, 0 ≤ x → x ≤ 1 → f x = P.eval x) (h1 : ∀ x, 1 ≤ x → f x = b)
    (d0 : (derivative P).eval 0 = 0) (d1 : (derivative P).eval 1 = 0) (x : ℝ) :
    HasDerivAt f (if x ≤ 0 ∨ x ≥ 1 then 0 else (derivative P).eval x) x := by
  rcases lt_trichotomy x 0 with h | h | h
  · rw [if_pos (Or.inl h.le)]
    refine (hasDerivAt_const x a).congr_of_eventuallyEq ?_
    filter_upwards [Iio_mem_nhds h] with y hy using h0 y (le_of_lt hy)
  · subst h
    rw [if_pos (Or.inl le_rfl)]
    have l : HasDerivWithinAt f 0 (Set.Iic 0) 0 := (hasDerivWithinAt_const 0 _ a).congr (fun y hy => h0 y hy) (h0 0 le_rfl)
    have r : HasDerivWithinAt f 0 (Set.Icc 0 1) 0 := by
      have := (P.hasDerivAt 0).hasDerivWithinAt (s := Set.Icc 0 1)
      rw [d0] at this
      exact this.congr (fun y hy => hm y hy.1 hy.2) (hm 0 le_rfl zero_le_one)
    refine (l.union r).hasDerivAt ?_
    filter_upwards [Iio_mem_nhds (show (0:ℝ) < 1 by norm_num)] with y hy
    rcases le_total y 0 with q | q
    · exact Or.inl q
    · exact Or.inr ⟨q, le_of_lt hy⟩
  rcases lt_trichotomy x 1 with g | g | g
  · rw [if_neg (by push Not; exact ⟨h, g⟩)]
    refine (P.hasDerivAt x).congr_of_eventuallyEq ?_
    filter_upwards [Ioo_mem_nhds h g] with y hy using hm y hy.1.le hy.2.le
  · subst g
    rw [if_pos (Or.inr le_rfl)]
    have l : HasDerivWithinAt f 0 (Set.Ici 1) 1 := (hasDerivWithinAt_const 1 _ b).congr (fun y hy => h1 y hy) (h1 1 le_rfl)
    have r : HasDerivWithinAt f 0 (Set.Icc 0 1) 1 := by
      have := (P.hasDerivAt 1).hasDerivWithinAt (s := Set.Icc 0 1)
      rw [d1] at this
      exact this.congr (fun y hy => hm y hy.1 hy.2) (hm 1 zero_le_one le_rfl)
    refine (l.union r).hasDerivAt ?_
    filter_upwards [Ioi_mem_nhds (show (0:ℝ) < 1 by norm_num)] with y hy
    rcases le_total 1 y with q | q
    · exact Or.inl q
    · exact Or.inr ⟨le_of_lt hy, q⟩
  · rw [if_pos (Or.inr g.le)]
    refine (hasDerivAt_const x b).congr_of_eventuallyEq ?_
    filter_upwards [Ioi_mem_nhds g] with y hy using h1 y (le_of_lt hy)

/-- C219, the derivative: from order 1 on `zSmoothStepDif` is the derivative of `zSmoothStep` everywhere, at the ends as well. -/
theorem zSmoothStep_deriv (N : Nat) (hN : 0 < N) (x : ℝ) : HasDerivAt (fun x => zSmoothStep x N) (zSmoothStepDif x N) x := by
  have := glue (fun x => zSmoothStep x N) (stepPoly N) 0 1 (zSmoothStep_ends N).1 (zSmoothStep_mid N) (zSmoothStep_ends N).2
    (by rw [stepPoly_derivative]; simp [show N ≠ 0 by omega]) (by rw [stepPoly_derivative]; simp [show N ≠ 0 by omega]) x
  rw [zSmoothStepDif_poly]
  rw [stepPoly_derivative] at this
  simpa using this

/-- C219, order 0 is the straight ramp, and its derivative is that inside it. -/
theorem zSmoothStep_ramp (x : ℝ) (h0 : 0 ≤ x) (h1 : x ≤ 1) : zSmoothStep x 0 = x ∧ (0 < x → x < 1 → HasDerivAt (fun x => zSmoothStep x 0) (zSmoothStepDif x 0) x) := by
  have hp : ∀ y : ℝ, 0 ≤ y → y ≤ 1 → zSmoothStep y 0 = y := by
    intro y a b; rw [zSmoothStep_mid 0 y a b]; simp [stepPoly]
  refine ⟨hp x h0 h1, fun a b => ?_⟩
  have : zSmoothStepDif x 0 = 1 := by rw [zSmoothStepDif_poly, if_neg (by push Not; exact ⟨a, b⟩)]; simp
  rw [this]
  refine (hasDerivAt_id x).congr_of_eventuallyEq ?_
  filter_upwards [Ioo_mem_nhds a b] with y hy using hp y hy.1.le hy.2.le

/-- A polynomial times a power of `x(1-x)` between 0 and 1, and zero outside. -/
noncomputable def bump (p : ℝ[X]) (k : Nat) (x : ℝ) : ℝ := if x ≤ 0 ∨ x ≥ 1 then 0 else (p * (X * (1 - X))^k).eval x

theorem bump_mid (p : ℝ[X]) (k : Nat) (hk : 0 < k) (x : ℝ) (h0 : 0 ≤ x) (h1 : x ≤ 1) : bump p k x = (p * (X * (1 - X))^k).eval x := by
  unfold bump
  split
  · next h =>
    have : x = 0 ∨ x = 1 := by rcases h with h | h; exacts [Or.inl (le_antisymm h h0), Or.inr (le_antisymm h1 h)]
    rcases this with rfl | rfl <;> simp [show k ≠ 0 by omega]
  · rfl

theorem bump_clamp (p : ℝ[X]) (k : Nat) (hk : 0 < k) : bump p k = fun x => (p * (X * (1 - X))^k).eval (max 0 (min 1 x)) := by
  funext x
  rcases le_total x 0 with h | h
  · rw [max_eq_left (le_trans (min_le_right _ _) h)]
    unfold bump
    rw [if_pos (Or.inl h)]
    simp [show k ≠ 0 by omega]
  rcases le_total x 1 with g | g
  · rw [min_eq_right g, max_eq_right h, bump_mid p k hk x h g]
  · rw [min_eq_left g, max_eq_right zero_le_one]
    unfold bump
    rw [if_pos (Or.inr g)]
    simp [show k ≠ 0 by omega]

theorem bump_deriv (p : ℝ[X]) (k : Nat) (hk : 0 < k) (x : ℝ) :
    HasDerivAt (bump p (k+1)) (bump (derivative p * (X * (1 - X)) + C (k+1 : ℝ) * p * (1 - 2 * X)) k x) x := by
  have e : derivative (p * (X * (1 - X))^(k+1)) = (derivative p * (X * (1 - X)) + C (k+1 : ℝ) * p * (1 - 2 * X)) * (X * (1 - X))^k := by
    rw [derivative_mul, derivative_pow, derivative_mul, derivative_sub, derivative_X, derivative_one, Nat.add_sub_cancel]
    push_cast
    ring
  have := glue (bump p (k+1)) (p * (X * (1 - X))^(k+1)) 0 0 (fun y hy => by unfold bump; rw [if_pos (Or.inl hy)]) (bump_mid p (k+1) (by omega))
    (fun y hy => by unfold bump; rw [if_pos (Or.inr hy)]) (by rw [e]; simp [show k ≠ 0 by omega]) (by rw [e]; simp [show k ≠ 0 by omega]) x
  rw [e] at this
  exact this

theorem bump_contDiff (k : Nat) : ∀ p : ℝ[X], ContDiff ℝ k (bump p (k+1)) := by
  induction k with
  | zero =>
    intro p
    rw [bump_clamp p _ (by omega)]
    exact contDiff_zero.mpr ((Polynomial.differentiable _).continuous.comp (by fun_prop))
  | succ k ih =>
    intro p
    push_cast
    rw [contDiff_succ_iff_deriv]
    refine ⟨fun x => (bump_deriv p (k+1) (by omega) x).differentiableAt, by simp, ?_⟩
    have : deriv (bump p (k+1+1)) = bump (derivative p * (X * (1 - X)) + C ((k+1 : Nat)+1 : ℝ) * p * (1 - 2 * X)) (k+1) :=
      funext fun x => (bump_deriv p (k+1) (by omega) x).deriv
    rw [this]
    exact ih _

/-- **C219.** The smooth step of order `N` has `N` continuous derivatives on the whole line; so the first `N` vanish at both ends. -/
theorem zSmoothStep_contDiff (N : Nat) : ContDiff ℝ N (fun x : ℝ => zSmoothStep x N) := by
  cases N with
  | zero =>
    have : (fun x => zSmoothStep x 0) = fun x : ℝ => max 0 (min 1 x) := by
      funext x
      rcases le_total x 0 with h | h
      · rw [(zSmoothStep_ends 0).1 x h, max_eq_left (le_trans (min_le_right _ _) h)]
      rcases le_total x 1 with g | g
      · rw [(zSmoothStep_ramp x h g).1, min_eq_right g, max_eq_right h]
      · rw [(zSmoothStep_ends 0).2 x g, min_eq_left g, max_eq_right zero_le_one]
    rw [this]
    exact contDiff_zero.mpr (by fun_prop)
  | succ M =>
    push_cast
    rw [contDiff_succ_iff_deriv]
    refine ⟨fun x => (zSmoothStep_deriv (M+1) (by omega) x).differentiableAt, by simp, ?_⟩
    have : deriv (fun x => zSmoothStep x (M+1)) = bump (C ((2*(M+1 : Nat)+1) * ((2*(M+1)).choose (M+1) : ℝ))) (M+1) := by
      funext x
      rw [(zSmoothStep_deriv (M+1) (by omega) x).deriv, zSmoothStepDif_poly]
      unfold bump
      simp only [eval_mul, eval_C, eval_pow, eval_X, eval_sub, eval_one, mul_pow]
    rw [this]
    exact bump_contDiff M _

/-- **C219.** It increases strictly from 0 to 1. -/
theorem zSmoothStep_mono (N : Nat) : StrictMonoOn (fun x : ℝ => zSmoothStep x N) (Set.Icc 0 1) ∧ ∀ x : ℝ, 0 ≤ zSmoothStep x N ∧ zSmoothStep x N ≤ 1 := by
  have hs : StrictMonoOn (fun x : ℝ => zSmoothStep x N) (Set.Icc 0 1) := by
    have : StrictMonoOn (fun x : ℝ => (stepPoly N).eval x) (Set.Icc 0 1) := by
      refine strictMonoOn_of_deriv_pos (convex_Icc 0 1) (Polynomial.differentiable _).continuous.continuousOn ?_
      intro x hx
      rw [interior_Icc] at hx
      rw [Polynomial.deriv, stepPoly_derivative]
      simp only [eval_mul, eval_C, eval_pow, eval_X, eval_sub, eval_one]
      have a : (0:ℝ) < (2*N).choose N := by exact_mod_cast Nat.choose_pos (by omega)
      have b : 0 < 1 - x := by linarith [hx.2]
      have c := hx.1
      positivity
    intro x hx y hy hxy
    simp only
    rw [zSmoothStep_mid N x hx.1 hx.2, zSmoothStep_mid N y hy.1 hy.2]
    exact this hx hy hxy
  refine ⟨hs, fun x => ?_⟩
  have z0 := (zSmoothStep_ends N).1 0 le_rfl
  have z1 := (zSmoothStep_ends N).2 1 le_rfl
  rcases le_total x 0 with h | h
  · rw [(zSmoothStep_ends N).1 x h]; exact ⟨le_rfl, zero_le_one⟩
  rcases le_total x 1 with g | g
  · have a := hs.monotoneOn ⟨le_rfl, zero_le_one⟩ ⟨h, g⟩ h
    have b := hs.monotoneOn ⟨h, g⟩ ⟨zero_le_one, le_rfl⟩ g
    simp only [z0, z1] at a b
    exact ⟨a, b⟩
  · rw [(zSmoothStep_ends N).2 x g]; exact ⟨zero_le_one, le_rfl⟩

/-- The familiar `3x²-2x³`, at a quarter. -/
example : (zSmoothStep (1/4 : ℚ) 1, zSmoothStepDif (1/4 : ℚ) 1) = (5/32, 9/8) := by decide +kernel

end Zm.Misc
