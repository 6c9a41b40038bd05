import Verif.Model.Complex
import Verif.Props.Misc
import Mathlib.Analysis.SpecialFunctions.Complex.Log
import Mathlib.Analysis.SpecialFunctions.Pow.Complex
import Mathlib.Analysis.SpecialFunctions.Trigonometric.Complex
import Mathlib.Algebra.Polynomial.Eval.Defs
import Mathlib.Algebra.BigOperators.Fin
import Mathlib.Data.List.Perm.Basic
import Mathlib.Tactic.LinearCombination
import Mathlib.Tactic.Linarith
import Mathlib.Tactic.FieldSimp

set_option linter.unusedSectionVars false
set_option linter.unusedVariables false

/-! # Complex numbers: C60, C61, C62, C63 -/

namespace Zm.Cplx
open Zm Zm.Misc

/-! ## Arithmetic -/

theorem create_eq (m : Heap) (p : Nat) (r i : Heap → ℝ) : create m p r i = set1 m p ⟨r m, i (set1 m p ⟨r m, (m p).im⟩)⟩ := by
  unfold create
  funext q
  by_cases h : q = p
  · subst h; simp [set1_same]
  · simp [set1_ne _ _ h]

/-- The members of a number while the real part of `p` has been written. -/
theorem half_im (m : Heap) (p q : Nat) (x : ℝ) : (set1 m p ⟨x, (m p).im⟩ q).im = (m q).im := by
  by_cases h : q = p
  · subst h; simp [set1_same]
  · rw [set1_ne _ _ h]

/-- C60: sum, difference, reversal, conjugate and real multiples are right, also in place. -/
theorem zComplexAdd_spec (m : Heap) (c1 c2 c : Nat) : zComplexAdd m c1 c2 c = set1 m c (m c1 + m c2) := by
  unfold zComplexAdd; rw [create_eq]; simp only [half_im]; congr 1
theorem zComplexSub_spec (m : Heap) (c1 c2 c : Nat) : zComplexSub m c1 c2 c = set1 m c (m c1 - m c2) := by
  unfold zComplexSub; rw [create_eq]; simp only [half_im]; congr 1
theorem zComplexRev_spec (m : Heap) (c1 c : Nat) : zComplexRev m c1 c = set1 m c (-m c1) := by
  unfold zComplexRev; rw [create_eq]; simp only [half_im]; congr 1
theorem zComplexConj_spec (m : Heap) (c1 c : Nat) : zComplexConj m c1 c = set1 m c (starRingEnd ℂ (m c1)) := by
  unfold zComplexConj; rw [create_eq]; simp only [half_im]; congr 1
theorem zComplexMul_spec (m : Heap) (c1 : Nat) (k : ℝ) (c : Nat) : zComplexMul m c1 k c = set1 m c (m c1 * k) := by
  unfold zComplexMul; rw [create_eq]; simp only [half_im]; congr 1
  apply Complex.ext <;> simp

theorem zComplexDiv_spec (tol : ℝ) (ht : 0 ≤ tol) (m : Heap) (c1 : Nat) (k : ℝ) (c : Nat) :
    zComplexDiv tol m c1 k c = if |k| ≤ tol then .fail else .ok (set1 m c (m c1 / k)) := by
  unfold zComplexDiv
  rw [zComplexMul_spec]
  simp [div_eq_mul_inv]

/-- The part of C60 for products that holds: the result is right when it does not share memory with an argument. -/
theorem zComplexCMul_spec_partial (m : Heap) (c1 c2 c : Nat) (h1 : c ≠ c1) (h2 : c ≠ c2) : zComplexCMul m c1 c2 c = set1 m c (m c1 * m c2) ∧
    zComplexCMulConj m c1 c2 c = set1 m c (m c1 * starRingEnd ℂ (m c2)) := by
  constructor
  · unfold zComplexCMul; rw [create_eq]
    simp only [set1_ne _ _ h1.symm, set1_ne _ _ h2.symm]
    congr 1
  · unfold zComplexCMulConj; rw [create_eq]
    simp only [set1_ne _ _ h1.symm, set1_ne _ _ h2.symm]
    congr 1
    apply Complex.ext <;> simp

/-- C60 is violated by products in place: `zComplexCMul(&a,&b,&a)` with a = b = i gives -1 - i. -/
theorem zComplexCMul_alias_violated : ∃ m : Heap, zComplexCMul m 0 1 0 0 ≠ m 0 * m 1 := by
  refine ⟨fun _ => Complex.I, ?_⟩
  unfold zComplexCMul
  rw [create_eq, set1_same]
  intro h
  have := congrArg Complex.im h
  simp [set1] at this

/-- C60: the in-place products are right for every sharing. -/
theorem zComplexCMulDRC_spec (m : Heap) (c1 c2 : Nat) : zComplexCMulDRC m c1 c2 = set1 m c1 (m c1 * m c2) ∧
    zComplexCMulConjDRC m c1 c2 = set1 m c1 (m c1 * starRingEnd ℂ (m c2)) := by
  constructor
  · unfold zComplexCMulDRC; congr 1
  · unfold zComplexCMulConjDRC; congr 1
    apply Complex.ext <;> simp

theorem sqrAbs_eq (c : ℂ) : zComplexSqrAbs c = Complex.normSq c := by
  simp [zComplexSqrAbs, Complex.normSq_apply]

theorem invVal_spec (tol : ℝ) (ht : 0 ≤ tol) (c : ℂ) : invVal tol c = if Complex.normSq c ≤ tol then .fail else .ok c⁻¹ := by
  unfold invVal
  dsimp only
  rw [sqrAbs_eq, abs_of_nonneg (Complex.normSq_nonneg c)]
  split_ifs
  · rfl
  · congr 1
    apply Complex.ext <;> simp [Complex.inv_re, Complex.inv_im, div_eq_mul_inv]

/-- C60: the inverse, or a reported failure. -/
theorem zComplexInv_spec (tol : ℝ) (ht : 0 ≤ tol) (m : Heap) (c ic : Nat) :
    zComplexInv tol m c ic = if Complex.normSq (m c) ≤ tol then .fail else .ok (set1 m ic (m c)⁻¹) := by
  unfold zComplexInv
  rw [invVal_spec tol ht]
  split_ifs <;> rfl

/-- The part of C60 for quotients that holds: divisors whose squared absolute value exceeds the tolerance, into other memory than the
dividend's. -/
theorem zComplexCDiv_spec_partial (tol : ℝ) (ht : 0 ≤ tol) (m : Heap) (c1 c2 c : Nat) (h1 : c ≠ c1) (h : tol < Complex.normSq (m c2)) :
    zComplexCDiv tol m c1 c2 c = .ok (set1 m c (m c1 / m c2)) := by
  unfold zComplexCDiv
  rw [invVal_spec tol ht, if_neg (not_le.2 h)]
  dsimp only
  rw [create_eq]
  simp only [set1_ne _ _ h1.symm]
  rw [div_eq_mul_inv]
  congr 2

theorem zComplexCDivDRC_spec_partial (tol : ℝ) (ht : 0 ≤ tol) (m : Heap) (c1 c2 : Nat) (h : tol < Complex.normSq (m c2)) :
    zComplexCDivDRC tol m c1 c2 = .ok (set1 m c1 (m c1 / m c2)) := by
  unfold zComplexCDivDRC
  rw [invVal_spec tol ht, if_neg (not_le.2 h)]
  dsimp only
  rw [div_eq_mul_inv]
  congr 2

/-- C60 is violated by quotients: for every non-zero divisor whose squared absolute value is within the tolerance, a variable is read that was
never written, instead of a failure being reported. -/
theorem zComplexCDiv_small_violated (tol : ℝ) (ht : 0 ≤ tol) (m : Heap) (c1 c2 c : Nat) (h : Complex.normSq (m c2) ≤ tol) :
    zComplexCDiv tol m c1 c2 c = .ub ∧ zComplexCDivDRC tol m c1 c2 = .ub := by
  unfold zComplexCDiv zComplexCDivDRC
  rw [invVal_spec tol ht, if_pos h]
  exact ⟨rfl, rfl⟩

example : ∃ z : ℂ, z ≠ 0 ∧ Complex.normSq z ≤ 1/1000000000000 := by
  refine ⟨⟨1/10000000, 0⟩, ?_, ?_⟩
  · intro h; have := congrArg Complex.re h; norm_num at this
  · norm_num [Complex.normSq_apply]

theorem abs_eq (c : ℂ) : zComplexAbs c = ‖c‖ := by
  unfold zComplexAbs
  rw [sqrAbs_eq, ← Complex.norm_def]

theorem arg_eq (c : ℂ) : zComplexArg c = Complex.arg c := rfl

theorem polar_eq (r t : ℝ) : polar r t = r * Complex.exp (t * Complex.I) := by
  rw [Complex.exp_mul_I]
  apply Complex.ext <;> simp [polar, Complex.cos_ofReal_re, Complex.sin_ofReal_re]

/-- C60: modulus and argument give the number back. -/
theorem zComplex_polar (c : ℂ) : polar (zComplexAbs c) (zComplexArg c) = c := by
  rw [polar_eq, abs_eq, arg_eq, Complex.norm_mul_exp_arg_mul_I]

/-- C60: complex powers of non-zero numbers are the principal ones. -/
theorem zComplexCPow_spec (c z : ℂ) (hc : c ≠ 0) : zComplexCPow c z = c ^ z := by
  unfold zComplexCPow
  rw [polar_eq, abs_eq, arg_eq, Complex.cpow_def_of_ne_zero hc, Real.rpow_def_of_pos (norm_pos_iff.2 hc), ← Real.exp_add, Complex.ofReal_exp,
    ← Complex.exp_add]
  congr 1
  apply Complex.ext <;> simp [Complex.log_re, Complex.log_im] <;> ring

/-- C60: real powers. -/
theorem zComplexPow_spec (c : ℂ) (z : ℝ) (hc : c ≠ 0 ∨ 0 ≤ z) : zComplexPow c z = c ^ (z : ℂ) := by
  by_cases h0 : c = 0
  · subst h0
    rcases hc with h | h
    · exact absurd rfl h
    unfold zComplexPow
    rw [polar_eq, abs_eq, arg_eq]
    rcases eq_or_lt_of_le h with h | h
    · rw [← h]; simp
    · have : (z : ℂ) ≠ 0 := by exact_mod_cast h.ne'
      simp [Real.zero_rpow h.ne', Complex.zero_cpow this]
  · rw [← zComplexCPow_spec c z h0]
    simp [zComplexPow, zComplexCPow, mul_comm]

/-- C60: the power with a reference is one of the powers of the number, the one whose angle is the least that is not less than the angle of the
reference. -/
theorem zComplexPowRef_spec (tol : ℝ) (c : ℂ) (z : ℝ) (ref : ℂ) (hc : c ≠ 0) (ht : 0 ≤ tol) (hz : tol < z) :
    ∃ k : ℤ, zComplexPowRef tol c z ref = Complex.exp (z * (Complex.log c + 2 * Real.pi * k * Complex.I)) ∧
      Complex.arg ref ≤ z * (Complex.arg c + 2 * Real.pi * k) ∧ z * (Complex.arg c + 2 * Real.pi * k) < Complex.arg ref + 2 * Real.pi * z := by
  have hzp : 0 < z := lt_of_le_of_lt ht hz
  have hw : 0 < 2 * Real.pi * z := by positivity
  refine ⟨⌈(Complex.arg ref - Complex.arg c * z) / (2 * Real.pi * z)⌉, ?_, ?_, ?_⟩
  · unfold zComplexPowRef
    dsimp only
    rw [if_pos (by rw [abs_of_pos hzp]; exact not_le.2 hz), polar_eq, abs_eq, arg_eq, arg_eq, Real.rpow_def_of_pos (norm_pos_iff.2 hc), Complex.ofReal_exp, ← Complex.exp_add]
    congr 1
    apply Complex.ext <;> simp [Complex.log_re, Complex.log_im] <;> ring
  · have := Int.le_ceil ((Complex.arg ref - Complex.arg c * z) / (2 * Real.pi * z))
    rw [div_le_iff₀ hw] at this
    nlinarith
  · have := Int.ceil_lt_add_one ((Complex.arg ref - Complex.arg c * z) / (2 * Real.pi * z))
    rw [← sub_lt_iff_lt_add, lt_div_iff₀ hw] at this
    nlinarith

/-- C60: logarithms of non-zero numbers. -/
theorem zComplexLog_spec (c : ℂ) (base : ℝ) (hc : c ≠ 0) :
    zComplexLog c base = if base ≤ 0 ∨ base = 1 then .fail else .ok (Complex.log c / Complex.log base) := by
  unfold zComplexLog
  split_ifs with h
  · rfl
  · push Not at h
    congr 1
    rw [abs_eq, arg_eq, ← Complex.ofReal_log h.1.le]
    apply Complex.ext <;> simp [Complex.log_re, Complex.log_im, Complex.div_ofReal_re, Complex.div_ofReal_im]

theorem zComplexCLog_spec (c base : ℂ) (hc : c ≠ 0) :
    zComplexCLog c base = if base = 0 ∨ base = 1 then .fail else .ok (Complex.log c / Complex.log base) := by
  unfold zComplexCLog
  dsimp only
  simp only [abs_eq, arg_eq]
  by_cases h0 : base = 0
  · subst h0; simp
  have hb : ‖base‖ ≠ 0 := norm_ne_zero_iff.2 h0
  rw [if_neg hb]
  have hd : Real.log ‖base‖ * Real.log ‖base‖ + Complex.arg base * Complex.arg base = Complex.normSq (Complex.log base) := by
    rw [Complex.normSq_apply, Complex.log_re, Complex.log_im]
  rw [hd]
  by_cases h1 : base = 1
  · subst h1; simp
  have hl : Complex.log base ≠ 0 := by
    intro h
    have := Complex.exp_log h0
    rw [h, Complex.exp_zero] at this
    exact h1 this.symm
  rw [if_neg (by rw [Complex.normSq_eq_zero]; exact hl), if_neg (by rintro (h | h); exact h0 h; exact h1 h)]
  congr 1
  apply Complex.ext <;> simp [Complex.div_re, Complex.div_im, Complex.log_re, Complex.log_im] <;> ring

/-- C60: normalisation. -/
theorem zComplexNormalize_spec (tol : ℝ) (ht : 0 ≤ tol) (m : Heap) (c nc : Nat) :
    zComplexNormalize tol m c nc = (if ‖m c‖ ≤ tol then .fail else .ok (set1 m nc (m c / ‖m c‖))) ∧
      (tol < ‖m c‖ → ‖m c / ‖m c‖‖ = 1) := by
  constructor
  · unfold zComplexNormalize
    rw [zComplexDiv_spec tol ht, abs_eq, abs_of_nonneg (norm_nonneg _)]
  · intro h
    have : ‖m c‖ ≠ 0 := (lt_of_le_of_lt ht h).ne'
    rw [norm_div, Complex.norm_real, norm_norm, div_self this]

/-- C60: the touch-up moves a number by at most the tolerance relative to the other part (or to one) in each part, and leaves parts either zero or as they are. -/
theorem zComplexTouchup_spec (c : ℂ) (tol : ℝ) (ht : 0 ≤ tol) :
    let t := zComplexTouchup c tol
    (t.re = c.re ∨ t.re = 0) ∧ (t.im = c.im ∨ t.im = 0) ∧ |t.re - c.re| ≤ tol * max 1 |c.im| ∧ |t.im - c.im| ≤ tol * max 1 |c.re| := by
  intro t
  have key : ∀ x y : ℝ, ((y ≠ 0 ∧ |x / y| ≤ tol) ∨ |x| ≤ tol) → |x| ≤ tol * max 1 |y| := by
    rintro x y (⟨h0, h⟩ | h)
    · rw [abs_div, div_le_iff₀ (abs_pos.2 h0)] at h
      exact h.trans (mul_le_mul_of_nonneg_left (le_max_right _ _) ht)
    · exact h.trans (le_mul_of_one_le_right ht (le_max_left _ _))
  have hn : ∀ y : ℝ, 0 ≤ tol * max 1 |y| := fun y => mul_nonneg ht (le_trans zero_le_one (le_max_left _ _))
  refine ⟨?_, ?_, ?_, ?_⟩
  · show (if _ then (0:ℝ) else _) = _ ∨ (if _ then (0:ℝ) else _) = _
    split_ifs <;> simp
  · show (if _ then (0:ℝ) else _) = _ ∨ (if _ then (0:ℝ) else _) = _
    split_ifs <;> simp
  · show |(if _ then (0:ℝ) else _) - _| ≤ _
    split_ifs with h
    · rw [zero_sub, abs_neg]; exact key _ _ h
    · simpa using hn c.im
  · show |(if _ then (0:ℝ) else _) - _| ≤ _
    split_ifs with h
    · rw [zero_sub, abs_neg]; exact key _ _ h
    · simpa using hn c.re

/-! ## Quadratic equations -/

/-- The part of C61 that holds: unless `b = c = 0`, the two numbers are the roots with their multiplicities. -/
theorem zQESolve_spec_partial (a b c : ℝ) (ha : a ≠ 0) (hbc : b ≠ 0 ∨ c ≠ 0) :
    ∃ r1 r2, zQESolve a b c = .ok (r1, r2) ∧ ∀ x : ℂ, a * x ^ 2 + b * x + c = a * (x - r1) * (x - r2) := by
  unfold zQESolve
  rw [if_neg ha]
  dsimp only
  by_cases hd : b * b - 4 * a * c ≥ 0
  · rw [if_pos hd]
    set s := Real.sqrt (b * b - 4 * a * c) with hs
    have hs2 : s * s = b * b - 4 * a * c := Real.mul_self_sqrt hd
    have hs0 : 0 ≤ s := Real.sqrt_nonneg _
    obtain ⟨e, he, heq⟩ : ∃ e : ℝ, e * e = s * s ∧ (if b ≥ 0 then s else -s) = e := ⟨_, by split_ifs <;> ring, rfl⟩
    have hq : -(1/2) * (b + e) ≠ 0 := by
      intro h
      have hbe : b = -e := by linarith
      have : b = 0 := by
        rw [← heq] at hbe
        split_ifs at hbe with h0
        · linarith
        · linarith
      subst this
      have he0 : e = 0 := by linarith
      rw [← he, he0] at hs2
      rcases hbc with h | h
      · exact h rfl
      · have : a * c = 0 := by linarith
        exact (mul_ne_zero ha h) this
    rw [heq, if_neg hq]
    refine ⟨_, _, rfl, fun x => ?_⟩
    set q := -(1/2) * (b + e) with hqdef
    have h2 : q * q + b * q + a * c = 0 := by rw [hqdef]; linear_combination (1/4) * he + (1/4) * hs2
    have haC : (a : ℂ) ≠ 0 := by exact_mod_cast ha
    have hqC : (q : ℂ) ≠ 0 := by exact_mod_cast hq
    have h2C : (q : ℂ) * q + b * q + a * c = 0 := by exact_mod_cast h2
    have e1 : (⟨q / a, 0⟩ : ℂ) = (q : ℂ) / a := by rw [← Complex.ofReal_div]; rfl
    have e2 : (⟨c / q, 0⟩ : ℂ) = (c : ℂ) / q := by rw [← Complex.ofReal_div]; rfl
    rw [e1, e2]
    field_simp
    linear_combination x * h2C
  · rw [if_neg hd]
    refine ⟨_, _, rfl, fun x => ?_⟩
    push Not at hd
    set s := Real.sqrt (-(b * b - 4 * a * c)) with hs
    have hs2 : s * s = -(b * b - 4 * a * c) := Real.mul_self_sqrt (by linarith)
    have haC : (a : ℂ) ≠ 0 := by exact_mod_cast ha
    have hs2C : (s : ℂ) * s = -(b * b - 4 * a * c) := by exact_mod_cast hs2
    have e1 : (⟨b / -(a * 2), s / (a * 2)⟩ : ℂ) = (b : ℂ) / -(a * 2) + (s : ℂ) / (a * 2) * Complex.I := by
      apply Complex.ext
      · simp [← Complex.ofReal_ofNat, ← Complex.ofReal_mul, ← Complex.ofReal_neg, ← Complex.ofReal_div]
      · simp [← Complex.ofReal_ofNat, ← Complex.ofReal_mul, ← Complex.ofReal_neg, ← Complex.ofReal_div]
    have e2 : (⟨b / -(a * 2), -(s / (a * 2))⟩ : ℂ) = (b : ℂ) / -(a * 2) - (s : ℂ) / (a * 2) * Complex.I := by
      apply Complex.ext
      · simp [← Complex.ofReal_ofNat, ← Complex.ofReal_mul, ← Complex.ofReal_neg, ← Complex.ofReal_div]
      · simp [← Complex.ofReal_ofNat, ← Complex.ofReal_mul, ← Complex.ofReal_neg, ← Complex.ofReal_div]
    rw [e1, e2]
    field_simp
    linear_combination (s * s : ℂ) * Complex.I_sq - hs2C

theorem zQESolve_refused (b c : ℝ) : zQESolve 0 b c = .fail := by simp [zQESolve]

/-- C61 is violated for `b = c = 0`: the code divides zero by zero, although both roots are zero. -/
theorem zQESolve_zero_violated (a : ℝ) (ha : a ≠ 0) : zQESolve a 0 0 = .ub := by simp [zQESolve, ha]

/-! ## Cubic equations -/

theorem zCbrt_spec (x : ℝ) : zCbrt x ^ 3 = x := by
  unfold zCbrt
  by_cases h0 : x = 0
  · subst h0; simp
  rw [if_neg h0]
  dsimp only
  set w := (if x > 0 then x ^ (1 / 3 : ℝ) else -(-x) ^ (1 / 3 : ℝ)) with hw
  have hpow : ∀ y : ℝ, 0 ≤ y → (y ^ (1 / 3 : ℝ)) ^ 3 = y := by
    intro y hy
    rw [← Real.rpow_natCast, ← Real.rpow_mul hy]; norm_num
  have hw3 : w ^ 3 = x := by
    rw [hw]
    split_ifs with h
    · exact hpow x h.le
    · rw [show (-(-x) ^ (1 / 3 : ℝ)) ^ 3 = -(((-x) ^ (1 / 3 : ℝ)) ^ 3) by ring, hpow _ (by linarith)]; ring
  have hwn : w ≠ 0 := by rintro h; rw [h] at hw3; simp at hw3; exact h0 hw3.symm
  have e : x / w = w * w := by rw [← hw3]; field_simp
  rw [e, show 1/2 * (w + 3 * x / (2 * w * w + w * w)) = w by rw [← hw3]; field_simp; ring]
  exact hw3

theorem cbrt_unique {x y : ℝ} (h : x ^ 3 = y ^ 3) : x = y := by
  exact (Odd.strictMono_pow (by decide : Odd 3)).injective h

/-- C62: the three numbers are the roots of the cubic with their multiplicities, for all coefficients with `a ≠ 0`. -/
theorem zCESolve_spec (a b c d : ℝ) (ha : a ≠ 0) :
    ∃ r1 r2 r3, zCESolve a b c d = .ok (r1, r2, r3) ∧
      ∀ x : ℂ, a * x ^ 3 + b * x ^ 2 + c * x + d = a * (x - r1) * (x - r2) * (x - r3) := by
  unfold zCESolve
  rw [if_neg ha]
  dsimp only
  have haC : (a : ℂ) ≠ 0 := by exact_mod_cast ha
  obtain ⟨B, hB⟩ : ∃ B, B = b / (3 * a) := ⟨_, rfl⟩
  obtain ⟨C, hC⟩ : ∃ C, C = c / a := ⟨_, rfl⟩
  obtain ⟨D, hD⟩ : ∃ D, D = d / a := ⟨_, rfl⟩
  rw [← hB, ← hC, ← hD]
  have hb : b = 3 * a * B := by rw [hB]; field_simp
  have hc : c = a * C := by rw [hC]; field_simp
  have hd : d = a * D := by rw [hD]; field_simp
  clear hB hC hD
  subst hb hc hd
  obtain ⟨p, hp⟩ : ∃ p, p = C / 3 - B * B := ⟨_, rfl⟩
  obtain ⟨q, hq⟩ : ∃ q, q = -B * (2 * B * B - C) - D := ⟨_, rfl⟩
  rw [← hp, ← hq]
  by_cases hg : q * q + 4 * p * p * p > 0
  · rw [if_pos hg]
    refine ⟨_, _, _, rfl, fun x => ?_⟩
    set w := Real.sqrt (q * q + 4 * p * p * p) with hw
    have hw2 : w * w = q * q + 4 * p * p * p := Real.mul_self_sqrt hg.le
    have h1 := zCbrt_spec (1/2 * (q + w))
    have h2 := zCbrt_spec (1/2 * (q - w))
    generalize zCbrt (1/2 * (q + w)) = z1 at *
    generalize zCbrt (1/2 * (q - w)) = z2 at *
    have h12 : z1 * z2 = -p := by
      apply cbrt_unique
      rw [mul_pow, h1, h2]
      linear_combination (-1/4) * hw2
    have hsum : z1 ^ 3 + z2 ^ 3 = q := by rw [h1, h2]; ring
    have h3 : Real.sqrt 3 * Real.sqrt 3 = 3 := Real.mul_self_sqrt (by norm_num)
    generalize Real.sqrt 3 = s at *
    have e0 : (⟨z1 + z2 - B, 0⟩ : ℂ) = (z1 : ℂ) + z2 - B := by apply Complex.ext <;> simp
    have e1 : (⟨-(1/2) * (z1 + z2) - B, 1/2 * s * (z1 - z2)⟩ : ℂ) = (-(1/2) * (z1 + z2) - B : ℂ) + (1/2 * s * (z1 - z2)) * Complex.I := by
      apply Complex.ext
      · simp
      · simp
    have e2 : (⟨-(1/2) * (z1 + z2) - B, -(1/2 * s * (z1 - z2))⟩ : ℂ) = (-(1/2) * (z1 + z2) - B : ℂ) - (1/2 * s * (z1 - z2)) * Complex.I := by
      apply Complex.ext
      · simp
      · simp
    rw [e0, e1, e2]
    have h12C : (z1 : ℂ) * z2 = -p := by exact_mod_cast h12
    have hsumC : (z1 : ℂ) ^ 3 + z2 ^ 3 = q := by exact_mod_cast hsum
    have h3C : (s : ℂ) * s = 3 := by exact_mod_cast h3
    have hpC : (p : ℂ) = C / 3 - B * B := by exact_mod_cast hp
    have hqC : (q : ℂ) = -B * (2 * B * B - C) - D := by exact_mod_cast hq
    have hI := Complex.I_sq
    push_cast
    have key : ((x : ℂ) - (z1 + z2 - B)) * (x - ((-(1/2) * (z1 + z2) - B : ℂ) + (1/2 * s * (z1 - z2)) * Complex.I)) *
        (x - ((-(1/2) * (z1 + z2) - B : ℂ) - (1/2 * s * (z1 - z2)) * Complex.I)) = (x + B) ^ 3 + 3 * p * (x + B) - q := by
      linear_combination (-(1/4 : ℂ) * s ^ 2 * (z1 - z2) ^ 2 * (x - (z1 + z2 - B))) * hI + (1/4 * (z1 - z2) ^ 2 * (x - (z1 + z2 - B)) : ℂ) * h3C
        - 3 * (x + B) * h12C - hsumC
    rw [show (a : ℂ) * (x - (z1 + z2 - B)) * (x - ((-(1/2) * (z1 + z2) - B : ℂ) + (1/2 * s * (z1 - z2)) * Complex.I)) *
        (x - ((-(1/2) * (z1 + z2) - B : ℂ) - (1/2 * s * (z1 - z2)) * Complex.I)) = a * (((x : ℂ) - (z1 + z2 - B)) * (x - ((-(1/2) * (z1 + z2) - B : ℂ) + (1/2 * s * (z1 - z2)) * Complex.I)) *
        (x - ((-(1/2) * (z1 + z2) - B : ℂ) - (1/2 * s * (z1 - z2)) * Complex.I))) by ring, key, hpC, hqC]
    ring
  · rw [if_neg hg]
    refine ⟨_, _, _, rfl, fun x => ?_⟩
    push Not at hg
    have hp0 : p ≤ 0 := by
      by_contra h
      push Not at h
      nlinarith [mul_pos (mul_pos h h) h, mul_self_nonneg q]
    obtain ⟨z, hz, hcos⟩ : ∃ z, z = (if q ≠ 0 then atan2 (Real.sqrt (-(q * q + 4 * p * p * p))) q else Real.pi / 2) ∧
        2 * (Real.sqrt (-p)) ^ 3 * Real.cos z = q := by
      refine ⟨_, rfl, ?_⟩
      have hs2 : Real.sqrt (-p) ^ 2 = -p := Real.sq_sqrt (by linarith)
      have hs0 := Real.sqrt_nonneg (-p)
      by_cases h0 : q = 0
      · rw [if_neg (by simp [h0]), Real.cos_pi_div_two, h0]; ring
      · rw [if_pos h0]
        unfold atan2
        have hne : (⟨q, Real.sqrt (-(q * q + 4 * p * p * p))⟩ : ℂ) ≠ 0 := by
          intro h; exact h0 (congrArg Complex.re h)
        rw [Complex.cos_arg hne]
        have hn : ‖(⟨q, Real.sqrt (-(q * q + 4 * p * p * p))⟩ : ℂ)‖ = 2 * Real.sqrt (-p) ^ 3 := by
          rw [Complex.norm_def, Complex.normSq_mk, Real.mul_self_sqrt (by linarith)]
          have : q * q + -(q * q + 4 * p * p * p) = (2 * Real.sqrt (-p) ^ 3) ^ 2 := by
            have : Real.sqrt (-p) ^ 6 = (-p) ^ 3 := by
              calc Real.sqrt (-p) ^ 6 = (Real.sqrt (-p) ^ 2) ^ 3 := by ring
                _ = (-p) ^ 3 := by rw [hs2]
            linear_combination (-4) * this
          rw [this, Real.sqrt_sq (by positivity)]
        rw [hn]
        have hs : Real.sqrt (-p) ≠ 0 := by
          intro h
          rw [h, show (2 : ℝ) * 0 ^ 3 = 0 by norm_num, norm_eq_zero] at hn
          exact hne hn
        field_simp
    rw [← hz]
    clear hz
    have hs2 : Real.sqrt (-p) ^ 2 = -p := Real.sq_sqrt (by linarith)
    generalize Real.sqrt (-p) = s at *
    have c3 : Real.cos z = 4 * Real.cos (z / 3) ^ 3 - 3 * Real.cos (z / 3) := by
      rw [← Real.cos_three_mul]; congr 1; ring
    have h3 : Real.sqrt 3 * Real.sqrt 3 = 3 := Real.mul_self_sqrt (by norm_num)
    have k1 : Real.cos ((Real.pi - z) / 3) = 1/2 * Real.cos (z / 3) + Real.sqrt 3 / 2 * Real.sin (z / 3) := by
      rw [show (Real.pi - z) / 3 = Real.pi / 3 - z / 3 by ring, Real.cos_sub, Real.cos_pi_div_three, Real.sin_pi_div_three]
    have k2 : Real.cos ((Real.pi + z) / 3) = 1/2 * Real.cos (z / 3) - Real.sqrt 3 / 2 * Real.sin (z / 3) := by
      rw [show (Real.pi + z) / 3 = Real.pi / 3 + z / 3 by ring, Real.cos_add, Real.cos_pi_div_three, Real.sin_pi_div_three]
    rw [k1, k2]
    rw [c3] at hcos
    have hsc := Real.sin_sq_add_cos_sq (z / 3)
    generalize Real.cos (z / 3) = u at *
    generalize Real.sin (z / 3) = v at *
    generalize Real.sqrt 3 = t at *
    have ee : ∀ y : ℝ, (⟨y, 0⟩ : ℂ) = (y : ℂ) := fun y => rfl
    rw [ee, ee, ee]
    push_cast
    have hs2C : (s : ℂ) ^ 2 = -p := by exact_mod_cast hs2
    have hcosC : 2 * (s : ℂ) ^ 3 * (4 * u ^ 3 - 3 * u) = q := by exact_mod_cast hcos
    have hscC : (v : ℂ) ^ 2 + u ^ 2 = 1 := by exact_mod_cast hsc
    have h3C : (t : ℂ) * t = 3 := by exact_mod_cast h3
    have hpC : (p : ℂ) = C / 3 - B * B := by exact_mod_cast hp
    have hqC : (q : ℂ) = -B * (2 * B * B - C) - D := by exact_mod_cast hq
    have key : ((x : ℂ) - (2 * s * u - B)) * (x - (-(2 * s) * (1/2 * u + t / 2 * v) - B)) * (x - (-(2 * s) * (1/2 * u - t / 2 * v) - B)) =
        (x + B) ^ 3 + 3 * p * (x + B) - q := by
      linear_combination (-(s ^ 2 * v ^ 2) * (x + B - 2 * s * u) : ℂ) * h3C - (3 * s ^ 2 * (x + B - 2 * s * u) : ℂ) * hscC - 3 * (x + B) * hs2C - hcosC
    rw [show (a : ℂ) * ((x : ℂ) - (2 * s * u - B)) * (x - (-(2 * s) * (1/2 * u + t / 2 * v) - B)) * (x - (-(2 * s) * (1/2 * u - t / 2 * v) - B)) =
        a * (((x : ℂ) - (2 * s * u - B)) * (x - (-(2 * s) * (1/2 * u + t / 2 * v) - B)) * (x - (-(2 * s) * (1/2 * u - t / 2 * v) - B))) by ring, key, hpC, hqC]
    ring

theorem zCESolve_refused (b c d : ℝ) : zCESolve 0 b c d = .fail := by simp [zCESolve]

/-! ## Pairing -/

theorem findPair_perm {f : ℂ → Bool} {l l' : List ℂ} {b : ℂ} (h : findPair f l = some (b, l')) : f b = true ∧ l.Perm (b :: l') := by
  cases l with
  | nil => simp [findPair] at h
  | cons x l =>
    unfold findPair at h
    dsimp only at h
    split_ifs at h with hx
    · simp only [Option.some.injEq, Prod.mk.injEq] at h
      obtain ⟨rfl, rfl⟩ := h
      exact ⟨hx, List.Perm.refl _⟩
    · cases hj : l.findIdx? f with
      | none => rw [hj] at h; simp at h
      | some j =>
        rw [hj] at h
        simp only [Option.some.injEq, Prod.mk.injEq] at h
        obtain ⟨rfl, rfl⟩ := h
        rw [List.findIdx?_eq_some_iff_getElem] at hj
        obtain ⟨hlt, hf, -⟩ := hj
        have e : l.getD j 0 = l[j] := by simp [List.getD_eq_getElem?_getD, hlt]
        rw [e]
        refine ⟨hf, ?_⟩
        have h1 : (l[j] :: l.set j x).Perm (x :: l) := by
          induction l generalizing j with
          | nil => simp at hlt
          | cons y l ih =>
            cases j with
            | zero => simpa using List.Perm.swap _ _ _
            | succ j =>
              simp only [List.getElem_cons_succ, List.set_cons_succ]
              refine (List.Perm.swap _ _ _).trans ?_
              refine (List.Perm.cons y (ih j (by simpa using hlt) (by simpa using hf) (by simpa using e))).trans (List.Perm.swap _ _ _)
        exact h1.symm

theorem findPair_none {f : ℂ → Bool} {l : List ℂ} (h : findPair f l = none) : ∀ z ∈ l, f z = false := by
  cases l with
  | nil => simp
  | cons x l =>
    unfold findPair at h
    dsimp only at h
    split_ifs at h with hx
    cases hj : l.findIdx? f with
    | none =>
      rw [List.findIdx?_eq_none_iff] at hj
      intro z hz
      rcases List.mem_cons.1 hz with rfl | hz
      · simpa using hx
      · exact hj z hz
    | some j => rw [hj] at h; simp at h

/-- Neighbours at even positions are conjugate within the tolerance. -/
def Paired (tol : ℝ) : List ℂ → Prop
  | [] => True
  | [_] => False
  | a :: b :: l => zComplexCoconj a b tol = true ∧ Paired tol l

/-- C63: on success the result is a rearrangement of the argument in which neighbours are conjugate. -/
theorem zCVecConjPair_ok (tol : ℝ) (v w : List ℂ) (h : zCVecConjPair tol v = .ok w) : v.Perm w ∧ Paired tol w := by
  unfold zCVecConjPair at h
  split_ifs at h with hodd
  have key : ∀ (n : Nat) (l w : List ℂ), l.length ≤ n → l.length % 2 ≠ 1 → conjPairLoop tol n l = .ok w → l.Perm w ∧ Paired tol w := by
    intro n
    induction n with
    | zero =>
      intro l w hl _ h
      have : l = [] := List.length_eq_zero_iff.1 (by omega)
      subst this
      simp only [conjPairLoop, Res.ok.injEq] at h
      subst h
      exact ⟨List.Perm.refl _, trivial⟩
    | succ n ih =>
      intro l w hl hp h
      cases l with
      | nil =>
        simp only [conjPairLoop, Res.ok.injEq] at h
        subst h
        exact ⟨List.Perm.refl _, trivial⟩
      | cons a l =>
        unfold conjPairLoop at h
        cases hf : findPair (fun z => zComplexCoconj a z tol) l with
        | none => rw [hf] at h; simp at h
        | some r =>
          obtain ⟨b, l'⟩ := r
          rw [hf] at h
          dsimp only at h
          obtain ⟨h1, h2⟩ := findPair_perm hf
          have hlen := h2.length_eq
          simp only [List.length_cons] at hl hp hlen
          cases hr : conjPairLoop tol n l' with
          | ok r =>
            rw [hr] at h
            simp only [Res.bind, Res.ok.injEq] at h
            subst h
            obtain ⟨i1, i2⟩ := ih l' r (by omega) (by omega) hr
            exact ⟨(h2.trans (i1.cons b)).cons a, h1, i2⟩
          | fail => rw [hr] at h; simp [Res.bind] at h
          | ub => rw [hr] at h; simp [Res.bind] at h
  exact key v.length v w le_rfl hodd h

/-- A list that is made of conjugate pairs in some order. -/
def Conjugate (l : List ℂ) : Prop := ∃ p : List ℂ, l.Perm (p.flatMap fun z => [z, starRingEnd ℂ z])

/-- C63: the pairing never fails on a vector that is made of conjugate pairs, in whatever order, provided that the tolerance tells the
elements apart. -/
theorem zCVecConjPair_complete (tol : ℝ) (v : List ℂ) (hv : Conjugate v)
    (hex : ∀ a ∈ v, ∀ b ∈ v, zComplexCoconj a b tol = true ↔ b = starRingEnd ℂ a) : ∃ w, zCVecConjPair tol v = .ok w := by
  have heven : v.length % 2 ≠ 1 := by
    obtain ⟨p, hp⟩ := hv
    rw [hp.length_eq]
    have : (p.flatMap fun z => [z, starRingEnd ℂ z]).length = 2 * p.length := by
      induction p with
      | nil => rfl
      | cons z p ih => simp [List.flatMap_cons] at ih ⊢; omega
    omega
  unfold zCVecConjPair
  rw [if_neg heven]
  have key : ∀ (n : Nat) (l : List ℂ), Conjugate l → (∀ a ∈ l, ∀ b ∈ l, zComplexCoconj a b tol = true ↔ b = starRingEnd ℂ a) →
      ∃ w, conjPairLoop tol n l = .ok w := by
    intro n
    induction n with
    | zero => intro l _ _; exact ⟨l, rfl⟩
    | succ n ih =>
      intro l hl hx
      cases l with
      | nil => exact ⟨[], rfl⟩
      | cons a l =>
        -- the rest contains the conjugate of `a` and without it is made of pairs
        obtain ⟨p, hp⟩ := hl
        have ha : a ∈ p.flatMap fun z => [z, starRingEnd ℂ z] := hp.subset (by simp)
        rw [List.mem_flatMap] at ha
        obtain ⟨z, hz, haz⟩ := ha
        have hpz : p.Perm (z :: p.erase z) := List.perm_cons_erase hz
        have h1 : (a :: l).Perm (a :: starRingEnd ℂ a :: (p.erase z).flatMap fun z => [z, starRingEnd ℂ z]) := by
          refine hp.trans ((hpz.flatMap_right _).trans ?_)
          rw [List.flatMap_cons]
          simp only [List.mem_cons, List.not_mem_nil, or_false] at haz
          rcases haz with rfl | rfl
          · rfl
          · rw [Complex.conj_conj]; exact List.Perm.swap _ _ _
        have h2 := h1.cons_inv
        unfold conjPairLoop
        cases hf : findPair (fun z => zComplexCoconj a z tol) l with
        | none =>
          exfalso
          have hm : starRingEnd ℂ a ∈ l := h2.symm.subset (by simp)
          have := findPair_none hf _ hm
          rw [(hx a (by simp) _ (by simp [hm])).2 rfl] at this
          exact absurd this (by simp)
        | some r =>
          obtain ⟨b, l'⟩ := r
          obtain ⟨f1, f2⟩ := findPair_perm hf
          have hb : b = starRingEnd ℂ a := (hx a (by simp) b (by simp [f2.symm.subset (List.mem_cons_self)])).1 f1
          subst hb
          have h3 : l'.Perm ((p.erase z).flatMap fun z => [z, starRingEnd ℂ z]) := (f2.symm.trans h2).cons_inv
          have hsub : ∀ c ∈ l', c ∈ a :: l := fun c hc => List.mem_cons_of_mem _ (f2.symm.subset (List.mem_cons_of_mem _ hc))
          obtain ⟨w, hw⟩ := ih l' ⟨_, h3⟩ (fun c hc d hd => hx c (hsub c hc) d (hsub d hd))
          dsimp only
          rw [hw]
          exact ⟨_, rfl⟩
  exact key v.length v hv hex

/-- C63: the split keeps the real parts of the real elements in order, and the others as pairs. -/
theorem zCVecToReImVec_spec (tol : ℝ) (v : List ℂ) (r : List ℝ) (w : List ℂ) (h : zCVecToReImVec tol v = .ok (r, w)) :
    r = (v.filter fun z => decide (|z.im| ≤ tol)).map Complex.re ∧ (v.filter fun z => !decide (|z.im| ≤ tol)).Perm w ∧ Paired tol w := by
  unfold zCVecToReImVec at h
  dsimp only at h
  split_ifs at h with h1 h2
  · simp only [Res.ok.injEq, Prod.mk.injEq] at h
    obtain ⟨rfl, rfl⟩ := h
    exact ⟨rfl, by rw [h2], trivial⟩
  · cases hp : zCVecConjPair tol (v.filter fun z => !decide (|z.im| ≤ tol)) with
    | ok w' =>
      rw [hp] at h
      simp only [Res.bind, Res.ok.injEq, Prod.mk.injEq] at h
      obtain ⟨rfl, rfl⟩ := h
      exact ⟨rfl, zCVecConjPair_ok tol _ _ hp⟩
    | fail => rw [hp] at h; simp [Res.bind] at h
    | ub => rw [hp] at h; simp [Res.bind] at h

example : Conjugate [⟨1, 2⟩, ⟨3, 1⟩, ⟨1, -2⟩, ⟨3, -1⟩] := by
  refine ⟨[⟨1, 2⟩, ⟨3, 1⟩], ?_⟩
  have e : ([⟨1, 2⟩, ⟨3, 1⟩] : List ℂ).flatMap (fun z => [z, starRingEnd ℂ z]) = [⟨1, 2⟩, ⟨1, -2⟩, ⟨3, 1⟩, ⟨3, -1⟩] := rfl
  rw [e]
  exact List.Perm.cons _ (List.Perm.swap _ _ _)

/-! ## Vectors -/

/-- The inner product of complex vectors is conjugate-linear in the second one. -/
theorem zCVecInnerProd_spec (n : Nat) (v1 v2 : Nat → ℂ) : zCVecInnerProdNC n v1 v2 = ∑ i ∈ Finset.range n, v1 i * starRingEnd ℂ (v2 i) := by
  unfold zCVecInnerProdNC
  refine forUp_inv _ _ (P := fun k z => z = ∑ i ∈ Finset.range k, v1 i * starRingEnd ℂ (v2 i)) (Nat.zero_le n) (by simp; rfl) ?_
  rintro i z - - rfl
  rw [Finset.sum_range_succ]
  apply Complex.ext <;> simp

theorem zCVecSqrNorm_spec (n : Nat) (v : Nat → ℂ) : zCVecSqrNorm n v = ∑ i ∈ Finset.range n, ‖v i‖ ^ 2 := by
  unfold zCVecSqrNorm
  rw [abs_eq, zCVecInnerProd_spec]
  have : ∑ i ∈ Finset.range n, v i * starRingEnd ℂ (v i) = ((∑ i ∈ Finset.range n, ‖v i‖ ^ 2 : ℝ) : ℂ) := by
    push_cast
    exact Finset.sum_congr rfl fun i _ => by rw [Complex.mul_conj']
  rw [this, Complex.norm_real, Real.norm_of_nonneg (Finset.sum_nonneg fun i _ => by positivity)]

theorem forUp_write {α : Type*} (n : Nat) (F : Nat → α) (v : Nat → α) (i : Nat) : forUp 0 n (fun i v => set1 v i (F i)) v i = if i < n then F i else v i := by
  rw [forUp_set1 (lo := 0) (hi := n) (fun i _ => F i) v F (by intros; rfl)]
  simp

/-- The part of C60 for the division of vectors that holds. -/
theorem zCVecCDiv_spec_partial (tol : ℝ) (ht : 0 ≤ tol) (n : Nat) (v1 : Nat → ℂ) (z : ℂ) (v : Nat → ℂ) (hz : tol < Complex.normSq z) (ht1 : tol ≤ 1/2) :
    ∃ w, zCVecCDiv tol n v1 z v = .ok w ∧ ∀ i < n, w i = v1 i / z := by
  unfold zCVecCDiv
  have h1 : ¬ (|z.re| ≤ tol ∧ |z.im| ≤ tol) ∨ (|z.re| ≤ tol ∧ |z.im| ≤ tol) := by tauto
  rcases h1 with h1 | h1
  · rw [if_neg h1]
    dsimp only
    rw [sqrAbs_eq, abs_of_nonneg (Complex.normSq_nonneg z), if_neg (not_le.2 hz)]
    refine ⟨_, rfl, fun i hi => ?_⟩
    rw [forUp_write, if_pos hi]
    apply Complex.ext <;> simp [Complex.div_re, Complex.div_im] <;> ring
  · exfalso
    rw [Complex.normSq_apply, ← abs_mul_abs_self z.re, ← abs_mul_abs_self z.im] at hz
    nlinarith [abs_nonneg z.re, abs_nonneg z.im, mul_le_mul h1.1 h1.1 (abs_nonneg _) ht, mul_le_mul h1.2 h1.2 (abs_nonneg _) ht]

/-- C60 is violated by the division of vectors: dividing one by 10⁻⁷ reports success and gives 10⁻⁷. -/
theorem zCVecCDiv_small_violated : ∃ w, zCVecCDiv (1/1000000000000) 1 (fun _ => 1) ⟨1/10000000, 0⟩ (fun _ => 0) = .ok w ∧
    w 0 = 1/10000000 := by
  unfold zCVecCDiv
  rw [if_neg (by norm_num [abs_of_pos])]
  dsimp only
  rw [if_pos (by norm_num [zComplexSqrAbs, abs_of_pos])]
  refine ⟨_, rfl, ?_⟩
  rw [forUp_write, if_pos one_pos]
  apply Complex.ext <;> norm_num

end Zm.Cplx
