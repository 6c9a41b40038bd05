import Verif.Props.Fresnel
import Mathlib.Analysis.SpecialFunctions.Gaussian.GaussianIntegral
import Mathlib.MeasureTheory.Integral.IntegralEqImproper
import Mathlib.Analysis.Calculus.ParametricIntegral
import Mathlib.Tactic.LinearCombination

/-!
# The continued fraction of the Fresnel integrals (C122)

The numerators and denominators of the convergents solve a recurrence of three terms.  The denominators grow (`dsum_growth`), which bounds the number of turns; the
difference of two convergents bounds the distance to the limit (`conv_error`); and the limit is the Fresnel integral, by the integrals of s^n exp(-s^2 - 2 z s).
-/
set_option linter.unusedSectionVars false

namespace Zm.SF
open Zm Finset MeasureTheory

/-- The partial denominators. -/
noncomputable def fb (y : ℝ) (n : Nat) : ℂ := ⟨4*n+1, -y⟩
/-- The partial numerators, without the sign. -/
noncomputable def fa (n : Nat) : ℝ := (2*n+1)*(2*n+2)

/-- The solution of the recurrence from two values. -/
noncomputable def cfr (y : ℝ) (p q : ℂ) : Nat → ℂ
  | 0 => p
  | 1 => q
  | n+2 => fb y (n+1) * cfr y p q (n+1) - fa n * cfr y p q n

theorem cfr_two (y : ℝ) (p q : ℂ) (n : Nat) : cfr y p q (n+2) = fb y (n+1) * cfr y p q (n+1) - fa n * cfr y p q n := by
  conv_lhs => unfold cfr

/-- Denominators. -/
noncomputable def fB (y : ℝ) : Nat → ℂ := cfr y 1 (fb y 0)
/-- Numerators; `e` is zero for the continued fraction itself. -/
noncomputable def fA (y : ℝ) (e : ℝ) : Nat → ℂ := cfr y e 1

theorem fa_pos (n : Nat) : 0 < fa n := by unfold fa; positivity

/-- The ratio of two terms. -/
theorem ratio_step (y : ℝ) (p q : ℂ) (n : Nat) (h0 : cfr y p q n ≠ 0) (h : 2*(n:ℝ)+1 ≤ (cfr y p q (n+1) / cfr y p q n).re) :
    cfr y p q (n+1) ≠ 0 ∧ 2*((n+1:Nat):ℝ)+1 ≤ (cfr y p q (n+2) / cfr y p q (n+1)).re := by
  have h1 : cfr y p q (n+1) ≠ 0 := by
    intro h1
    rw [h1, zero_div, Complex.zero_re] at h
    have : (0:ℝ) ≤ n := Nat.cast_nonneg n
    linarith
  refine ⟨h1, ?_⟩
  have e : cfr y p q (n+2) / cfr y p q (n+1) = fb y (n+1) - fa n * (cfr y p q (n+1) / cfr y p q n)⁻¹ := by
    rw [cfr_two]
    field_simp
  rw [e]
  set r := cfr y p q (n+1) / cfr y p q n with hr
  have hn : (0:ℝ) ≤ n := Nat.cast_nonneg n
  have hpos : 0 < r.re := by linarith
  have hi : (r⁻¹).re ≤ 1 / (2*n+1) := by
    rw [Complex.inv_re, Complex.normSq_apply, div_le_div_iff₀ (by nlinarith) (by positivity)]
    nlinarith [mul_self_nonneg r.im]
  have : (fb y (n+1) - (fa n : ℂ) * r⁻¹).re = 4*(n+1:ℝ)+1 - fa n * (r⁻¹).re := by
    rw [Complex.sub_re, Complex.re_ofReal_mul]
    simp [fb]
  rw [this]
  have h2 : fa n * (r⁻¹).re ≤ fa n * (1/(2*n+1)) := mul_le_mul_of_nonneg_left hi (fa_pos n).le
  have h3 : fa n * (1/(2*(n:ℝ)+1)) = 2*n+2 := by unfold fa; field_simp
  push_cast
  linarith

theorem fB_ratio (y : ℝ) (n : Nat) : fB y n ≠ 0 ∧ 2*(n:ℝ)+1 ≤ (fB y (n+1) / fB y n).re := by
  induction n with
  | zero => simp [fB, cfr, fb]
  | succ n ih => exact ratio_step y _ _ n ih.1 ih.2

theorem fA_ratio (y e : ℝ) (he : e ≤ 1) (n : Nat) : fA y e (n+1) ≠ 0 ∧ 2*((n+1:Nat):ℝ)+1 ≤ (fA y e (n+2) / fA y e (n+1)).re := by
  induction n with
  | zero =>
    refine ⟨by simp [fA, cfr], ?_⟩
    simp [fA, cfr, fb, fa]
    linarith
  | succ n ih => exact ratio_step y _ _ (n+1) ih.1 ih.2

theorem fB_norm_ratio (y : ℝ) (n : Nat) : 2*(n:ℝ)+1 ≤ ‖fB y (n+1) / fB y n‖ := (fB_ratio y n).2.trans ((le_abs_self _).trans (Complex.abs_re_le_norm _))

theorem fb_norm (y : ℝ) (hy : 0 ≤ y) (n : Nat) : ‖fb y n‖ ≤ 4*n+1+y := by
  refine (Complex.norm_le_abs_re_add_abs_im _).trans ?_
  simp only [fb, abs_neg, abs_of_nonneg hy]
  rw [abs_of_nonneg (by positivity)]

theorem fB_norm_ratio_le (y : ℝ) (hy : 0 ≤ y) (n : Nat) : ‖fB y (n+1) / fB y n‖ ≤ 6*n+1+y := by
  cases n with
  | zero =>
    have := fb_norm y hy 0
    simpa [fB, cfr] using this
  | succ n =>
    have h0 := (fB_ratio y n).1
    have h1 := (fB_ratio y (n+1)).1
    have e : fB y (n+2) / fB y (n+1) = fb y (n+1) - fa n * (fB y (n+1) / fB y n)⁻¹ := by
      have := cfr_two y 1 (fb y 0) n
      change fB y (n+2) = fb y (n+1) * fB y (n+1) - fa n * fB y n at this
      rw [this]
      field_simp
    rw [e]
    refine (norm_sub_le _ _).trans ?_
    rw [norm_mul, norm_inv, Complex.norm_real, Real.norm_eq_abs, abs_of_pos (fa_pos n)]
    have h2 := fB_norm_ratio y n
    have h3 : fa n * ‖fB y (n+1) / fB y n‖⁻¹ ≤ 2*n+2 := by
      have hn : (0:ℝ) < 2*n+1 := by positivity
      rw [← div_eq_mul_inv, div_le_iff₀ (lt_of_lt_of_le hn h2)]
      unfold fa
      nlinarith
    have h4 := fb_norm y hy (n+1)
    push_cast at h4 ⊢
    linarith

/-- The imaginary part of the product of two denominators. -/
noncomputable def fW (y : ℝ) (n : Nat) : ℝ := -(fB y (n+1) * (starRingEnd ℂ) (fB y n)).im

theorem fW_succ (y : ℝ) (n : Nat) : fW y (n+1) = y * ‖fB y (n+1)‖^2 + fa n * fW y n := by
  have e : fB y (n+2) = fb y (n+1) * fB y (n+1) - fa n * fB y n := cfr_two y 1 (fb y 0) n
  unfold fW
  rw [e, ← Complex.normSq_eq_norm_sq, Complex.normSq_apply]
  simp [fb]
  ring

theorem fW_zero (y : ℝ) : fW y 0 = y := by simp [fW, fB, cfr, fb]

/-- The scaled squares of the denominators, and their sums. -/
noncomputable def cbeta (y : ℝ) (n : Nat) : ℝ := ‖fB y n‖^2 / (2*n).factorial
noncomputable def dsum (y : ℝ) : Nat → ℝ
  | 0 => cbeta y 0
  | n+1 => dsum y n + cbeta y (n+1)

theorem fa_fact (n : Nat) : ((2*(n+1)).factorial : ℝ) = fa n * (2*n).factorial := by
  rw [show 2*(n+1) = 2*n+1+1 by ring, Nat.factorial_succ, Nat.factorial_succ]
  unfold fa
  push_cast
  ring

theorem fW_eq (y : ℝ) (n : Nat) : fW y n = (2*n).factorial * (y * dsum y n) := by
  induction n with
  | zero => rw [fW_zero]; simp [dsum, cbeta, fB, cfr]
  | succ n ih =>
    rw [fW_succ, ih, dsum, cbeta, fa_fact]
    have := fa_pos n
    have h2 : (0:ℝ) < (2*n).factorial := by positivity
    field_simp
    ring

theorem cbeta_pos (y : ℝ) (n : Nat) : 0 < cbeta y n := by
  have := norm_pos_iff.2 (fB_ratio y n).1
  unfold cbeta
  positivity

theorem dsum_pos (y : ℝ) (n : Nat) : cbeta y n ≤ dsum y n ∧ 0 < dsum y n := by
  induction n with
  | zero => exact ⟨le_refl _, cbeta_pos y 0⟩
  | succ n ih =>
    have := cbeta_pos y (n+1)
    exact ⟨by rw [dsum]; linarith [ih.2], by rw [dsum]; linarith [ih.2]⟩

theorem cbeta_growth (y : ℝ) (hy : 0 ≤ y) (n : Nat) : y * dsum y n / (n+1) ≤ cbeta y (n+1) := by
  have hW : 0 ≤ fW y n := by rw [fW_eq]; have := (dsum_pos y n).2; positivity
  have h0 := norm_pos_iff.2 (fB_ratio y n).1
  have key : 2*(2*n+1) * fW y n ≤ ‖fB y (n+1)‖^2 := by
    have hr := (fB_ratio y n).2
    have e1 : (fB y (n+1) * (starRingEnd ℂ) (fB y n)).re = (fB y (n+1) / fB y n).re * ‖fB y n‖^2 := by
      rw [div_eq_mul_inv, Complex.inv_def, Complex.normSq_eq_norm_sq, ← mul_assoc, Complex.re_mul_ofReal]
      field_simp
    have e2 : ‖fB y (n+1)‖^2 * ‖fB y n‖^2 = (fB y (n+1) * (starRingEnd ℂ) (fB y n)).re^2 + fW y n^2 := by
      unfold fW
      rw [neg_sq, ← mul_pow]
      have : ‖fB y (n+1) * (starRingEnd ℂ) (fB y n)‖^2 = (fB y (n+1) * (starRingEnd ℂ) (fB y n)).re^2 + (fB y (n+1) * (starRingEnd ℂ) (fB y n)).im^2 := by
        rw [← Complex.normSq_eq_norm_sq, Complex.normSq_apply]; ring
      rw [← this, norm_mul, Complex.norm_conj]
    rw [e1] at e2
    set r := (fB y (n+1) / fB y n).re
    have hn : (0:ℝ) ≤ n := Nat.cast_nonneg n
    have h3 : 2 * (2*n+1) * fW y n * ‖fB y n‖^2 ≤ ‖fB y (n+1)‖^2 * ‖fB y n‖^2 := by
      rw [e2]
      have h4 : (2*n+1) * ‖fB y n‖^2 * fW y n ≤ r * ‖fB y n‖^2 * fW y n :=
        mul_le_mul_of_nonneg_right (mul_le_mul_of_nonneg_right hr (by positivity)) hW
      nlinarith [sq_nonneg (r * ‖fB y n‖^2 - fW y n)]
    exact le_of_mul_le_mul_right h3 (by positivity)
  rw [fW_eq] at key
  unfold cbeta
  rw [div_le_div_iff₀ (by positivity) (by positivity), fa_fact]
  unfold fa
  nlinarith

theorem dsum_growth (y : ℝ) (hy : 0 ≤ y) (n : Nat) : dsum y n * (1 + y/(n+1)) ≤ dsum y (n+1) := by
  have := cbeta_growth y hy n
  rw [dsum]
  have e : dsum y n * (1 + y/(n+1)) = dsum y n + y * dsum y n/(n+1) := by ring
  linarith

theorem dsum_one (y : ℝ) : dsum y 1 = 1 + (1+y^2)/2 := by
  have h : ‖fb y 0‖^2 = 1 + y^2 := by
    rw [← Complex.normSq_eq_norm_sq, Complex.normSq_apply]; simp [fb]; ring
  simp [dsum, cbeta, fB, cfr, h, Nat.factorial]

theorem dsum_choose (y : ℝ) (hy : 7 ≤ y) (n : Nat) : (1+y^2)/2 * ((n+8).choose 7 / 8) ≤ dsum y (n+1) := by
  induction n with
  | zero =>
    rw [dsum_one]
    norm_num [Nat.choose]
  | succ n ih =>
    have h := dsum_growth y (by linarith) (n+1)
    have hd := (dsum_pos y (n+1)).2
    have hn : (0:ℝ) ≤ n := Nat.cast_nonneg n
    have h1 : dsum y (n+1) * (1 + 7/((n:ℝ)+2)) ≤ dsum y (n+1) * (1 + y/(((n+1:Nat):ℝ)+1)) := by
      refine mul_le_mul_of_nonneg_left ?_ hd.le
      push_cast
      rw [show (n:ℝ)+1+1 = n+2 by ring]
      gcongr
    have hc : ((n+1+8).choose 7 : ℝ) = (n+8).choose 7 * (1 + 7/((n:ℝ)+2)) := by
      have := Nat.add_one_mul_choose_eq (n+8) 7
      have h2 := Nat.choose_succ_right_eq (n+1+8) 7
      have e1 : (n+1+8).choose 8 * 8 = (n+1+8).choose 7 * (n+2) := by rw [h2, show n+1+8-7 = n+2 by omega]
      have e2 : (n+1+8) * (n+8).choose 7 = (n+1+8).choose 7 * (n+2) := by
        rw [← e1]
        simpa [Nat.succ_eq_add_one, add_assoc, add_comm, add_left_comm] using this
      have e3 : ((n:ℝ)+1+8) * (n+8).choose 7 = (n+1+8).choose 7 * (n+2) := by exact_mod_cast e2
      field_simp
      linarith
    rw [hc]
    have h3 := mul_le_mul_of_nonneg_right ih (show 0 ≤ 1 + 7/((n:ℝ)+2) by positivity)
    calc _ = (1+y^2)/2 * ((n+8).choose 7 / 8) * (1 + 7/((n:ℝ)+2)) := by ring
      _ ≤ _ := h3.trans (h1.trans h)

theorem dsum_square (y : ℝ) (hy : 7 ≤ y) (n : Nat) : ((n:ℝ)+1)^2 ≤ dsum y n := by
  induction n with
  | zero => simp [dsum, cbeta, fB, cfr]
  | succ n ih =>
    have h := dsum_growth y (by linarith) n
    have hd := (dsum_pos y n).2
    have hn : (0:ℝ) ≤ n := Nat.cast_nonneg n
    have h1 : dsum y n * (1 + 7/((n:ℝ)+1)) ≤ dsum y n * (1 + y/((n:ℝ)+1)) := by
      refine mul_le_mul_of_nonneg_left ?_ hd.le
      gcongr
    have h3 := mul_le_mul_of_nonneg_right ih (show 0 ≤ 1 + 7/((n:ℝ)+1) by positivity)
    have e : ((n:ℝ)+1)^2 * (1 + 7/((n:ℝ)+1)) = (n+1)*(n+8) := by field_simp; ring
    push_cast
    nlinarith

/-! ## Convergents -/

/-- The convergents: `conv y 0 = 0`. -/
noncomputable def conv (y : ℝ) (n : Nat) : ℂ := fA y 0 n / fB y n

theorem fA_succ2 (y e : ℝ) (n : Nat) : fA y e (n+2) = fb y (n+1) * fA y e (n+1) - fa n * fA y e n := cfr_two y e 1 n
theorem fB_succ2 (y : ℝ) (n : Nat) : fB y (n+2) = fb y (n+1) * fB y (n+1) - fa n * fB y n := cfr_two y 1 (fb y 0) n

theorem casorati (y : ℝ) (n : Nat) : fA y 0 (n+1) * fB y n - fA y 0 n * fB y (n+1) = (2*n).factorial := by
  induction n with
  | zero => simp [fA, fB, cfr]
  | succ n ih =>
    have h := fa_fact n
    have h' : ((2*(n+1)).factorial : ℂ) = fa n * (2*n).factorial := by exact_mod_cast congrArg (fun t : ℝ => (t:ℂ)) h
    rw [h', ← ih, fA_succ2, fB_succ2]
    ring

theorem conv_diff (y : ℝ) (n : Nat) : conv y (n+1) - conv y n = (2*n).factorial / (fB y n * fB y (n+1)) := by
  have h0 := (fB_ratio y n).1
  have h1 := (fB_ratio y (n+1)).1
  rw [← casorati]
  unfold conv
  field_simp

theorem conv_diff_le (y : ℝ) (hy : 0 < y) (n : Nat) : ‖conv y (n+1) - conv y n‖ ≤ 1 / (y * dsum y n) := by
  have h0 := norm_pos_iff.2 (fB_ratio y n).1
  have h1 := norm_pos_iff.2 (fB_ratio y (n+1)).1
  have hd := (dsum_pos y n).2
  rw [conv_diff, norm_div, norm_mul, Complex.norm_natCast, div_le_div_iff₀ (by positivity) (by positivity), one_mul]
  have hW : fW y n ≤ ‖fB y n‖ * ‖fB y (n+1)‖ := by
    have := Complex.abs_im_le_norm (fB y (n+1) * (starRingEnd ℂ) (fB y n))
    rw [norm_mul, Complex.norm_conj] at this
    have h2 := neg_le_abs (fB y (n+1) * (starRingEnd ℂ) (fB y n)).im
    unfold fW
    linarith
  rwa [← fW_eq]

/-- The numerators with an `e`. -/
theorem fA_eps (y e : ℝ) (n : Nat) : fA y e n = fA y 0 n + e * (fB y n - fb y 0 * fA y 0 n) := by
  have h : ∀ n, (fA y e n = fA y 0 n + e * (fB y n - fb y 0 * fA y 0 n)) ∧ (fA y e (n+1) = fA y 0 (n+1) + e * (fB y (n+1) - fb y 0 * fA y 0 (n+1))) := by
    intro n
    induction n with
    | zero => simp [fA, fB, cfr]
    | succ n ih =>
      refine ⟨ih.2, ?_⟩
      rw [fA_succ2, ih.1, ih.2, fA_succ2, fB_succ2]
      ring
  exact (h n).1

/-- The distance of a number from the convergents, scaled. -/
noncomputable def fY (y : ℝ) (h : ℂ) (n : Nat) : ℂ := fB y n * h - fA y 0 n
noncomputable def fU (y : ℝ) (h : ℂ) (n : Nat) : ℝ := (fY y h (n+1) * (starRingEnd ℂ) (fY y h n)).im

theorem fY_succ2 (y : ℝ) (h : ℂ) (n : Nat) : fY y h (n+2) = fb y (n+1) * fY y h (n+1) - fa n * fY y h n := by
  unfold fY
  rw [fA_succ2, fB_succ2]
  ring

theorem fU_succ (y : ℝ) (h : ℂ) (n : Nat) : fU y h (n+1) = fa n * fU y h n - y * ‖fY y h (n+1)‖^2 := by
  unfold fU
  rw [fY_succ2, ← Complex.normSq_eq_norm_sq, Complex.normSq_apply]
  simp [fb]
  ring

theorem fU_conv (y : ℝ) (hy : 0 ≤ y) (m n : Nat) (h : n ≤ m) : 0 ≤ fU y (conv y m) n := by
  have hm : fY y (conv y m) m = 0 := by
    have := (fB_ratio y m).1
    unfold fY conv
    field_simp
    ring
  have : ∀ k n : Nat, n + k = m → 0 ≤ fU y (conv y m) n := by
    intro k
    induction k with
    | zero =>
      intro n hn
      have : n = m := by omega
      subst this
      unfold fU
      rw [hm]
      simp
    | succ k ih =>
      intro n hn
      have h1 := ih (n+1) (by omega)
      rw [fU_succ] at h1
      have h2 : 0 ≤ fa n * fU y (conv y m) n := by nlinarith [sq_nonneg ‖fY y (conv y m) (n+1)‖]
      exact nonneg_of_mul_nonneg_right h2 (fa_pos n)
  exact this (m-n) n (by omega)

theorem conv_error (y : ℝ) (hy : 0 < y) (h : ℂ) (n : Nat) (hU : 0 ≤ fU y h n) : ‖h - conv y n‖ ≤ ‖conv y (n+1) - conv y n‖ * (‖fB y (n+1) / fB y n‖ / y) := by
  have h0 := (fB_ratio y n).1
  have h1 := (fB_ratio y (n+1)).1
  have p0 := norm_pos_iff.2 h0
  have p1 := norm_pos_iff.2 h1
  set D := conv y (n+1) - conv y n with hD
  have eD : fY y h n * (fB y (n+1) / fB y n) - fY y h (n+1) = fB y (n+1) * D := by
    rw [hD]
    unfold fY conv
    field_simp
    ring
  have eY : h - conv y n = fY y h n / fB y n := by
    unfold fY conv
    field_simp
  have hW : y * ‖fB y n‖^2 ≤ fW y n := by
    rw [fW_eq]
    have := (dsum_pos y n).1
    unfold cbeta at this
    rw [div_le_iff₀ (by positivity)] at this
    nlinarith
  have hI : (fB y (n+1) / fB y n).im ≤ -y := by
    rw [div_eq_mul_inv, Complex.inv_def, Complex.normSq_eq_norm_sq, ← mul_assoc, Complex.im_mul_ofReal]
    have : (fB y (n+1) * (starRingEnd ℂ) (fB y n)).im = -fW y n := by unfold fW; ring
    rw [this, ← div_eq_mul_inv, div_le_iff₀ (by positivity)]
    linarith
  have eI : ((fB y (n+1) * D) * (starRingEnd ℂ) (fY y h n)).im = ‖fY y h n‖^2 * (fB y (n+1) / fB y n).im - fU y h n := by
    rw [← eD, ← Complex.normSq_eq_norm_sq, Complex.normSq_apply]
    unfold fU
    generalize fB y (n+1) / fB y n = r
    simp
    ring
  have hb : y * ‖fY y h n‖^2 ≤ ‖fB y (n+1)‖ * ‖D‖ * ‖fY y h n‖ := by
    have h2 := Complex.abs_im_le_norm ((fB y (n+1) * D) * (starRingEnd ℂ) (fY y h n))
    rw [norm_mul, norm_mul, Complex.norm_conj, eI] at h2
    have h3 := neg_le_abs (‖fY y h n‖^2 * (fB y (n+1) / fB y n).im - fU y h n)
    nlinarith [sq_nonneg ‖fY y h n‖]
  have hY : y * ‖fY y h n‖ ≤ ‖fB y (n+1)‖ * ‖D‖ := by
    rcases (norm_nonneg (fY y h n)).eq_or_lt with h2 | h2
    · rw [← h2, mul_zero]; positivity
    · refine le_of_mul_le_mul_right ?_ h2
      nlinarith
  rw [eY, norm_div, norm_div, div_le_iff₀ p0]
  rw [show ‖D‖ * (‖fB y (n+1)‖ / ‖fB y n‖ / y) * ‖fB y n‖ = ‖fB y (n+1)‖ * ‖D‖ / y by field_simp, le_div_iff₀ hy]
  linarith

/-- The convergents are near the inverse of the first partial denominator. -/
theorem conv_first (y : ℝ) (hy : 0 < y) (m : Nat) (hm : 1 ≤ m) : ‖conv y m‖ ≤ 1/y ∧ ‖1 - fb y 0 * conv y m‖ ≤ 2/y^2 := by
  have h0 := fU_conv y hy.le m 0 (by omega)
  have h1 := fU_conv y hy.le m 1 (by omega)
  rw [show (1:Nat) = 0+1 from rfl, fU_succ] at h1
  set h := conv y m
  have e0 : fY y h 0 = h := by simp [fY, fA, fB, cfr]
  have e1 : fY y h 1 = fb y 0 * h - 1 := by simp [fY, fA, fB, cfr]
  have eU : fU y h 0 = h.im - y * ‖h‖^2 := by
    unfold fU
    rw [e0, e1, ← Complex.normSq_eq_norm_sq, Complex.normSq_apply]
    simp [fb]
    ring
  have hi : h.im ≤ ‖h‖ := (le_abs_self _).trans (Complex.abs_im_le_norm h)
  have a : ‖h‖ ≤ 1/y := by
    rw [eU] at h0
    rw [le_div_iff₀ hy]
    rcases (norm_nonneg h).eq_or_lt with h2 | h2
    · rw [← h2]; norm_num
    · refine le_of_mul_le_mul_right ?_ h2
      nlinarith
  refine ⟨a, ?_⟩
  have hU : fU y h 0 ≤ ‖fY y h 1‖ * ‖h‖ := by
    unfold fU
    have := Complex.abs_im_le_norm (fY y h (0+1) * (starRingEnd ℂ) (fY y h 0))
    rw [norm_mul, Complex.norm_conj, e0] at this
    rw [e0]
    exact (le_abs_self _).trans this
  have hc : fa 0 = 2 := by norm_num [fa]
  rw [hc] at h1
  have hb : y * ‖fY y h 1‖ ≤ 2 * ‖h‖ := by
    rcases (norm_nonneg (fY y h 1)).eq_or_lt with h2 | h2
    · rw [← h2, mul_zero]; positivity
    · refine le_of_mul_le_mul_right ?_ h2
      simp only [zero_add] at h1
      nlinarith
  rw [← norm_neg, neg_sub, ← e1, le_div_iff₀ (by positivity)]
  have h3 : ‖h‖ * y ≤ 1 := (le_div_iff₀ hy).1 a
  nlinarith [norm_nonneg (fY y h 1)]

/-! ## The integrals of s^n exp(-s^2 - 2 z s) -/

open Set Filter Topology in
section
/-- The integrand. -/
noncomputable def kf (n : Nat) (z : ℂ) (s : ℝ) : ℂ := (s:ℂ)^n * Complex.exp (-(s:ℂ)^2 - 2*z*s)
/-- The integral from 0 to infinity. -/
noncomputable def kI (n : Nat) (z : ℂ) : ℂ := ∫ s in Ioi (0:ℝ), kf n z s

theorem kf_norm (n : Nat) (z : ℂ) (s : ℝ) (hs : 0 ≤ s) : ‖kf n z s‖ = s^n * Real.exp (-s^2 - 2*z.re*s) := by
  unfold kf
  rw [norm_mul, norm_pow, Complex.norm_real, Real.norm_eq_abs, abs_of_nonneg hs, Complex.norm_exp]
  congr 2
  simp [← Complex.ofReal_pow]

theorem kf_norm_le (n : Nat) (z : ℂ) (R : ℝ) (hR : |z.re| ≤ R) (s : ℝ) (hs : 0 ≤ s) : ‖kf n z s‖ ≤ Real.exp (2*R^2) * (s^n * Real.exp (-(1/2) * s^2)) := by
  rw [kf_norm n z s hs]
  have h : Real.exp (-s^2 - 2*z.re*s) ≤ Real.exp (2*R^2) * Real.exp (-(1/2) * s^2) := by
    rw [← Real.exp_add, Real.exp_le_exp]
    have h1 := neg_abs_le z.re
    nlinarith [sq_nonneg (s - 2*R)]
  calc _ ≤ s^n * (Real.exp (2*R^2) * Real.exp (-(1/2) * s^2)) := mul_le_mul_of_nonneg_left h (by positivity)
    _ = _ := by ring

theorem gauss_int (n : Nat) (b : ℝ) (hb : 0 < b) : IntegrableOn (fun s : ℝ => s^n * Real.exp (-b * s^2)) (Ioi 0) := by
  have := integrableOn_rpow_mul_exp_neg_mul_sq (b := b) hb (s := n) (by have : (0:ℝ) ≤ n := Nat.cast_nonneg n; linarith)
  simpa using this

theorem kf_cont (n : Nat) (z : ℂ) : Continuous (kf n z) := by unfold kf; fun_prop

theorem kf_int (n : Nat) (z : ℂ) : IntegrableOn (kf n z) (Ioi 0) := by
  refine Integrable.mono' ((gauss_int n (1/2) (by norm_num)).const_mul (Real.exp (2*|z.re|^2))) (kf_cont n z).aestronglyMeasurable ?_
  filter_upwards [ae_restrict_mem measurableSet_Ioi] with s hs
  exact kf_norm_le n z |z.re| (le_refl _) s (le_of_lt hs)

theorem kf_tendsto (n : Nat) (z : ℂ) : Tendsto (kf n z) atTop (𝓝 0) := by
  have h := (Real.tendsto_pow_mul_exp_neg_atTop_nhds_zero n).const_mul (Real.exp (2*|z.re|^2))
  rw [mul_zero] at h
  refine squeeze_zero_norm' ?_ h
  filter_upwards [eventually_ge_atTop (2:ℝ)] with s hs
  refine (kf_norm_le n z |z.re| (le_refl _) s (by linarith)).trans ?_
  refine mul_le_mul_of_nonneg_left (mul_le_mul_of_nonneg_left ?_ (by positivity)) (by positivity)
  rw [Real.exp_le_exp]
  nlinarith

theorem kf_deriv (n : Nat) (z : ℂ) (s : ℝ) : HasDerivAt (kf (n+1) z) ((n+1) * kf n z s - 2 * kf (n+2) z s - 2*z * kf (n+1) z s) s := by
  have h1 : HasDerivAt (fun s : ℝ => (s:ℂ)) 1 s := Complex.ofRealCLM.hasDerivAt
  have h2 := (h1.pow (n+1)).mul (((h1.pow 2).neg.sub (h1.const_mul (2*z))).cexp)
  have h3 : HasDerivAt (kf (n+1) z) _ s := h2
  refine h3.congr_deriv ?_
  simp [kf]
  ring

theorem kf_deriv0 (z : ℂ) (s : ℝ) : HasDerivAt (kf 0 z) (- 2 * kf 1 z s - 2*z * kf 0 z s) s := by
  have h1 : HasDerivAt (fun s : ℝ => (s:ℂ)) 1 s := Complex.ofRealCLM.hasDerivAt
  have h2 := (((h1.pow 2).neg.sub (h1.const_mul (2*z))).cexp)
  have e : kf 0 z = fun s : ℝ => Complex.exp (-(s:ℂ)^2 - 2*z*s) := by funext s; simp [kf]
  rw [e]
  have h3 : HasDerivAt (fun s : ℝ => Complex.exp (-(s:ℂ)^2 - 2*z*s)) _ s := h2
  refine h3.congr_deriv ?_
  simp [kf]
  ring

theorem kI_rec (n : Nat) (z : ℂ) : (n+1) * kI n z = 2 * kI (n+2) z + 2*z * kI (n+1) z := by
  have hi : IntegrableOn (fun s => (n+1) * kf n z s - 2 * kf (n+2) z s - 2*z * kf (n+1) z s) (Ioi 0) :=
    (((kf_int n z).const_mul _).sub ((kf_int (n+2) z).const_mul _)).sub ((kf_int (n+1) z).const_mul _)
  have h := integral_Ioi_of_hasDerivAt_of_tendsto (a := 0) (f := kf (n+1) z) (kf_cont (n+1) z).continuousWithinAt (fun s _ => kf_deriv n z s) hi (kf_tendsto (n+1) z)
  have s1 := integral_sub (((kf_int n z).const_mul (n+1:ℂ)).sub ((kf_int (n+2) z).const_mul 2)) ((kf_int (n+1) z).const_mul (2*z))
  have s2 := integral_sub ((kf_int n z).const_mul (n+1:ℂ)) ((kf_int (n+2) z).const_mul 2)
  simp only [Pi.sub_apply] at s1
  rw [s1, s2, integral_const_mul, integral_const_mul, integral_const_mul] at h
  have e : kf (n+1) z 0 = 0 := by simp [kf]
  rw [e] at h
  unfold kI
  linear_combination h

theorem kI_rec0 (z : ℂ) : 2 * kI 1 z = 1 - 2*z * kI 0 z := by
  have hi : IntegrableOn (fun s => - 2 * kf 1 z s - 2*z * kf 0 z s) (Ioi 0) :=
    ((kf_int 1 z).const_mul _).sub ((kf_int 0 z).const_mul _)
  have h := integral_Ioi_of_hasDerivAt_of_tendsto (a := 0) (f := kf 0 z) (kf_cont 0 z).continuousWithinAt (fun s _ => kf_deriv0 z s) hi (kf_tendsto 0 z)
  rw [integral_sub ((kf_int 1 z).const_mul _) ((kf_int 0 z).const_mul _), integral_const_mul, integral_const_mul] at h
  have e : kf 0 z 0 = 1 := by simp [kf]
  rw [e] at h
  unfold kI
  linear_combination -h

/-- The moments of the Gaussian. -/
noncomputable def kap (n : Nat) : ℝ := ∫ s in Ioi (0:ℝ), s^n * Real.exp (-1 * s^2)

theorem kI_zero (n : Nat) : kI n 0 = kap n := by
  unfold kI kap
  rw [← integral_complex_ofReal]
  congr 1
  funext s
  unfold kf
  push_cast
  congr 2
  ring

theorem kap_rec (n : Nat) : (n+1) * kap n = 2 * kap (n+2) := by
  have h := kI_rec n 0
  rw [kI_zero, kI_zero, mul_zero, zero_mul, add_zero] at h
  exact_mod_cast h

theorem kap_zero : kap 0 = Real.sqrt Real.pi / 2 := by
  have := integral_gaussian_Ioi 1
  unfold kap
  simpa using this

theorem kap_nonneg (n : Nat) : 0 ≤ kap n := by
  unfold kap
  refine setIntegral_nonneg measurableSet_Ioi fun s hs => ?_
  have : (0:ℝ) < s := hs
  positivity

theorem kI_norm (n : Nat) (z : ℂ) (hz : 0 ≤ z.re) : ‖kI n z‖ ≤ kap n := by
  unfold kI kap
  refine norm_integral_le_of_norm_le (gauss_int n 1 one_pos) ?_
  filter_upwards [ae_restrict_mem measurableSet_Ioi] with s hs
  have hs' : (0:ℝ) < s := hs
  rw [kf_norm n z s hs'.le]
  refine mul_le_mul_of_nonneg_left ?_ (by positivity)
  rw [Real.exp_le_exp]
  nlinarith [mul_nonneg hz hs'.le]

theorem kap_bound (n : Nat) : (2^n * kap (2*n))^2 ≤ (2*n).factorial * (Real.pi/4) := by
  induction n with
  | zero =>
    simp only [mul_zero, pow_zero, one_mul, Nat.factorial_zero, Nat.cast_one, kap_zero]
    rw [div_pow, Real.sq_sqrt Real.pi_pos.le]
    norm_num
  | succ n ih =>
    have h := kap_rec (2*n)
    have e : 2^(n+1) * kap (2*(n+1)) = (2*n+1) * (2^n * kap (2*n)) := by
      rw [show 2*(n+1) = 2*n+2 by ring, pow_succ]
      push_cast at h
      linear_combination (-(2:ℝ)^n) * h
    rw [e, mul_pow, fa_fact]
    have hn : (0:ℝ) ≤ n := Nat.cast_nonneg n
    have hp := Real.pi_pos
    have h2 : ((2*(n:ℝ)+1)^2) * (2^n * kap (2*n))^2 ≤ (2*(n:ℝ)+1)^2 * ((2*n).factorial * (Real.pi/4)) := mul_le_mul_of_nonneg_left ih (by positivity)
    refine h2.trans ?_
    have h3 : (2*(n:ℝ)+1)^2 ≤ fa n := by unfold fa; nlinarith
    have h4 : (0:ℝ) ≤ (2*n).factorial * (Real.pi/4) := by positivity
    nlinarith [mul_le_mul_of_nonneg_right h3 h4]

/-- The derivative of the integral along a line. -/
theorem kI_deriv (c : ℂ) (x : ℝ) : HasDerivAt (fun t : ℝ => kI 0 (c*t)) (-2*c * kI 1 (c*x)) x := by
  have hd : ∀ (s t : ℝ), HasDerivAt (fun t : ℝ => kf 0 (c*t) s) (-2*c * kf 1 (c*t) s) t := by
    intro s t
    have h1 : HasDerivAt (fun t : ℝ => (t:ℂ)) 1 t := Complex.ofRealCLM.hasDerivAt
    have h2 := ((h1.const_mul (-(2*c*s))).const_add (-(s:ℂ)^2)).cexp
    have e : (fun t : ℝ => kf 0 (c*t) s) = fun t : ℝ => Complex.exp (-(s:ℂ)^2 + -(2*c*s) * t) := by
      funext t
      simp only [kf, pow_zero, one_mul]
      congr 1
      ring
    rw [e]
    convert h2 using 1
    simp only [kf, pow_one]
    rw [show -(s:ℂ)^2 - 2*(c*t)*s = -(s:ℂ)^2 + -(2*c*s) * t by ring]
    ring
  have h := hasDerivAt_integral_of_dominated_loc_of_deriv_le (μ := volume.restrict (Ioi 0)) (F := fun (t : ℝ) s => kf 0 (c*t) s) (F' := fun t s => -2*c * kf 1 (c*t) s) (x₀ := x)
    (s := Metric.ball x 1) (bound := fun s => 2 * ‖c‖ * (Real.exp (2*(‖c‖ * (|x|+1))^2) * (s^1 * Real.exp (-(1/2) * s^2))))
    (Metric.ball_mem_nhds x one_pos) (Eventually.of_forall fun t => (kf_cont 0 (c*t)).aestronglyMeasurable) (kf_int 0 (c*x))
    ((kf_cont 1 (c*x)).const_mul _).aestronglyMeasurable ?_ (((gauss_int 1 (1/2) (by norm_num)).const_mul _).const_mul _) (Eventually.of_forall fun s t _ => hd s t)
  · have h2 := h.2
    rw [integral_const_mul] at h2
    exact h2
  · filter_upwards [ae_restrict_mem measurableSet_Ioi] with s hs t ht
    have hs' : (0:ℝ) < s := hs
    rw [norm_mul, norm_mul, norm_neg, Complex.norm_ofNat]
    refine mul_le_mul_of_nonneg_left (kf_norm_le 1 (c*t) _ ?_ s hs'.le) (by positivity)
    rw [Complex.re_mul_ofReal, abs_mul]
    refine mul_le_mul (Complex.abs_re_le_norm c) ?_ (abs_nonneg _) (norm_nonneg _)
    rw [Metric.mem_ball, Real.dist_eq] at ht
    have := abs_sub_abs_le_abs_sub t x
    linarith

/-- The limit of the continued fraction. -/
theorem fY_kI (y : ℝ) (z : ℂ) (hz : z ≠ 0) (hy : 2*z^2 = ⟨0, -y⟩) (n : Nat) : fY y (kI 0 z / z) n = 2^n * kI (2*n) z / z := by
  have hb : ∀ n : Nat, fb y n = 4*n+1 + 2*z^2 := by
    intro n
    rw [hy]
    apply Complex.ext <;> simp [fb]
  have h : ∀ n : Nat, fY y (kI 0 z / z) n = 2^n * kI (2*n) z / z ∧ fY y (kI 0 z / z) (n+1) = 2^(n+1) * kI (2*(n+1)) z / z := by
    intro n
    induction n with
    | zero =>
      constructor
      · simp [fY, fA, fB, cfr]
      · have h1 := kI_rec 0 z
        have h2 := kI_rec0 z
        simp only [fY, fA, fB, cfr, hb]
        field_simp
        norm_num at h1 ⊢
        linear_combination h1 + z * h2
    | succ n ih =>
      refine ⟨ih.2, ?_⟩
      rw [fY_succ2, ih.1, ih.2, hb]
      have h1 := kI_rec (2*n) z
      have h2 := kI_rec (2*n+1) z
      have h3 := kI_rec (2*n+2) z
      have e1 : 2*(n+1) = 2*n+2 := by ring
      have e2 : 2*(n+1+1) = 2*n+2+2 := by ring
      rw [e1, e2]
      rw [show 2*n+1+2 = 2*n+2+1 by ring, show 2*n+1+1 = 2*n+2 by ring] at h2
      unfold fa
      push_cast at h1 h2 h3 ⊢
      have e : (4*((n:ℂ)+1)+1 + 2*z^2) * (2^(n+1) * kI (2*n+2) z) - (2*n+1)*(2*n+2) * (2^n * kI (2*n) z) = 2^(n+1+1) * kI (2*n+2+2) z := by
        linear_combination (-(2:ℂ)^n) * ((2*n+2) * h1 + 2*z*h2 - 2*h3)
      rw [← e]
      ring
  exact (h n).1
end

/-! ## The Fresnel integrals -/

/-- The direction of the argument of the error function. -/
noncomputable def cdir : ℂ := ⟨Real.sqrt Real.pi / 2, -(Real.sqrt Real.pi / 2)⟩

theorem cdir_sq : cdir^2 = -(Complex.I * (Real.pi/2 : ℝ)) := by
  have h := Real.mul_self_sqrt Real.pi_pos.le
  apply Complex.ext
  · simp [cdir, pow_two]
  · simp [cdir, pow_two]
    nlinarith

theorem cdir_mul : cdir * ((1+Complex.I)/2) = (Real.sqrt Real.pi / 2 : ℝ) := by
  have e : ((1+Complex.I)/2 : ℂ) = ⟨1/2, 1/2⟩ := by
    apply Complex.ext <;> simp
  rw [e]
  apply Complex.ext
  · simp [cdir]; ring
  · simp [cdir]

theorem fres_exp (x : ℝ) : (∫ t in (0:ℝ)..x, Complex.exp (-(cdir*t)^2)) = (fresC (Real.pi/2) x : ℂ) + fresS (Real.pi/2) x * Complex.I := by
  have e : ∀ t : ℝ, Complex.exp (-(cdir*t)^2) = ((Real.cos (Real.pi/2 * t^2) : ℝ) : ℂ) + ((Real.sin (Real.pi/2 * t^2) : ℝ) : ℂ) * Complex.I := by
    intro t
    rw [mul_pow, cdir_sq, show -(-(Complex.I * (Real.pi/2 : ℝ)) * (t:ℂ)^2) = ((Real.pi/2 * t^2 : ℝ) : ℂ) * Complex.I by push_cast; ring, Complex.exp_mul_I, Complex.ofReal_cos, Complex.ofReal_sin]
  simp only [e]
  rw [intervalIntegral.integral_add (Continuous.intervalIntegrable (by fun_prop) _ _) (Continuous.intervalIntegrable (by fun_prop) _ _), intervalIntegral.integral_mul_const,
    intervalIntegral.integral_ofReal, intervalIntegral.integral_ofReal]
  rfl

/-- The Fresnel integrals by the integral of exp(-s^2 - 2 z s). -/
theorem fres_kI (x : ℝ) (hx : 0 < x) : (fresC (Real.pi/2) x : ℂ) + fresS (Real.pi/2) x * Complex.I =
    (1+Complex.I)/2 - x * (kI 0 (cdir*x) / (cdir*x)) * Complex.exp (Complex.I * (Real.pi/2 * x^2 : ℝ)) := by
  have hc : cdir ≠ 0 := by
    intro h
    have := cdir_sq
    rw [h] at this
    have h2 := congrArg Complex.im this
    simp at h2
  have hd : ∀ t : ℝ, HasDerivAt (fun t : ℝ => Complex.exp (-(cdir*t)^2) * kI 0 (cdir*t)) (-cdir * Complex.exp (-(cdir*t)^2)) t := by
    intro t
    have h1 : HasDerivAt (fun t : ℝ => (t:ℂ)) 1 t := Complex.ofRealCLM.hasDerivAt
    have h2 := (((h1.const_mul cdir).pow 2).neg.cexp).mul (kI_deriv cdir t)
    have h3 : HasDerivAt (fun t : ℝ => Complex.exp (-(cdir*t)^2) * kI 0 (cdir*t)) _ t := h2
    refine h3.congr_deriv ?_
    have h4 := kI_rec0 (cdir*t)
    simp
    linear_combination (-cdir * Complex.exp (-(cdir*t)^2)) * h4
  have h := intervalIntegral.integral_eq_sub_of_hasDerivAt (a := 0) (b := x) (fun t _ => hd t) (Continuous.intervalIntegrable (by fun_prop) _ _)
  rw [intervalIntegral.integral_const_mul, fres_exp] at h
  have e0 : kI 0 (cdir*((0:ℝ):ℂ)) = (Real.sqrt Real.pi / 2 : ℝ) := by
    rw [Complex.ofReal_zero, mul_zero, kI_zero, kap_zero]
  rw [e0, ← cdir_mul] at h
  have ee : Complex.exp (-(cdir*x)^2) = Complex.exp (Complex.I * (Real.pi/2 * x^2 : ℝ)) := by
    rw [mul_pow, cdir_sq]
    congr 1
    push_cast
    ring
  rw [ee] at h
  simp at h
  have hx' : (x:ℂ) ≠ 0 := by exact_mod_cast hx.ne'
  refine mul_left_cancel₀ hc ?_
  push_cast
  rw [show cdir * ((1+Complex.I)/2 - x * (kI 0 (cdir*x) / (cdir*x)) * Complex.exp (Complex.I * (Real.pi/2 * x^2))) = cdir * ((1+Complex.I)/2) - kI 0 (cdir*x) * Complex.exp (Complex.I * (Real.pi/2 * x^2)) by
    field_simp]
  linear_combination -h

/-- The number meant by the continued fraction. -/
noncomputable def climit (x : ℝ) : ℂ := kI 0 (cdir*x) / (cdir*x)

theorem cdir_x (x : ℝ) (hx : 0 < x) : cdir*x ≠ 0 ∧ 2*(cdir*x)^2 = ⟨0, -(Real.pi*x^2)⟩ ∧ ‖cdir*x‖^2 = Real.pi*x^2/2 ∧ 0 ≤ (cdir*x).re := by
  have h2 : 2*(cdir*x)^2 = ⟨0, -(Real.pi*x^2)⟩ := by
    rw [mul_pow, cdir_sq]
    apply Complex.ext
    · simp [← Complex.ofReal_pow]
    · simp [← Complex.ofReal_pow]; ring
  have h3 : ‖cdir*x‖^2 = Real.pi*x^2/2 := by
    have := congrArg norm h2
    have e : (⟨0, -(Real.pi*x^2)⟩ : ℂ) = ((-(Real.pi*x^2) : ℝ) : ℂ) * Complex.I := by
      apply Complex.ext <;> simp [← Complex.ofReal_pow]
    rw [e, norm_mul, norm_mul, norm_pow, Complex.norm_I, Complex.norm_real, Complex.norm_ofNat, Real.norm_eq_abs, abs_neg, abs_of_nonneg (by have := Real.pi_pos; positivity)] at this
    linarith
  refine ⟨?_, h2, h3, ?_⟩
  · intro h
    rw [h, norm_zero] at h3
    have := Real.pi_pos
    have : 0 < Real.pi*x^2/2 := by positivity
    norm_num at h3
    linarith
  · simp [cdir]
    positivity

theorem conv_limit_sq (x : ℝ) (hx : 0 < x) (n : Nat) : ‖climit x - conv (Real.pi*x^2) n‖^2 ≤ 1 / (2*x^2) / cbeta (Real.pi*x^2) n := by
  obtain ⟨hz, h2, h3, h4⟩ := cdir_x x hx
  set y := Real.pi*x^2
  have hb := (fB_ratio y n).1
  have pb := norm_pos_iff.2 hb
  have hY := fY_kI y (cdir*x) hz h2 n
  have e : climit x - conv y n = fY y (climit x) n / fB y n := by
    unfold fY conv
    field_simp
  rw [e, norm_div, div_pow, climit, hY, norm_div, norm_mul, norm_pow, Complex.norm_ofNat, div_pow, h3]
  have hk := kI_norm (2*n) (cdir*x) h4
  have hk2 := kap_bound n
  have hk3 : (2^n * ‖kI (2*n) (cdir*x)‖)^2 ≤ (2*n).factorial * (Real.pi/4) := by
    refine le_trans ?_ hk2
    gcongr
  unfold cbeta
  have hp := Real.pi_pos
  have hf : (0:ℝ) < (2*n).factorial := by positivity
  have hy : 0 < y := by positivity
  have eR : 1 / (2*x^2) / (‖fB y n‖^2 / (2*n).factorial) = (2*n).factorial * (Real.pi/4) / (y/2) / ‖fB y n‖^2 := by
    simp only [y]
    field_simp
    norm_num
  rw [eR]
  gcongr

theorem conv_tendsto (x : ℝ) (hx : 0 < x) (hy : 7 ≤ Real.pi*x^2) : Filter.Tendsto (conv (Real.pi*x^2)) Filter.atTop (nhds (climit x)) := by
  have h : Filter.Tendsto (fun n : Nat => ‖climit x - conv (Real.pi*x^2) (n+1)‖^2) Filter.atTop (nhds 0) := by
    have h1 : Filter.Tendsto (fun n : Nat => 1 / (2*x^2) / 7 * (1 / ((n:ℝ)+1))) Filter.atTop (nhds 0) := by
      have := (tendsto_one_div_add_atTop_nhds_zero_nat (𝕜 := ℝ)).const_mul (1 / (2*x^2) / 7)
      rwa [mul_zero] at this
    refine squeeze_zero (fun n => by positivity) (fun n => (conv_limit_sq x hx (n+1)).trans ?_) h1
    have hb : 7 * ((n:ℝ)+1) ≤ cbeta (Real.pi*x^2) (n+1) := by
      refine le_trans ?_ (cbeta_growth (Real.pi*x^2) (by linarith) n)
      rw [le_div_iff₀ (by positivity)]
      have := dsum_square (Real.pi*x^2) hy n
      nlinarith
    have e : 1 / (2*x^2) / 7 * (1 / ((n:ℝ)+1)) = 1 / (2*x^2) / (7 * ((n:ℝ)+1)) := by field_simp
    rw [e]
    exact div_le_div_of_nonneg_left (by positivity) (by positivity) hb
  have h2 : Filter.Tendsto (fun n : Nat => ‖climit x - conv (Real.pi*x^2) (n+1)‖) Filter.atTop (nhds 0) := by
    have := h.sqrt
    simpa [Real.sqrt_sq] using this
  rw [← Filter.tendsto_add_atTop_iff_nat 1]
  rw [tendsto_iff_norm_sub_tendsto_zero]
  simpa [norm_sub_rev] using h2

theorem fU_limit (x : ℝ) (hx : 0 < x) (hy : 7 ≤ Real.pi*x^2) (n : Nat) : 0 ≤ fU (Real.pi*x^2) (climit x) n := by
  have hc : Continuous fun h => fU (Real.pi*x^2) h n := by unfold fU fY; fun_prop
  have h := (hc.tendsto (climit x)).comp (conv_tendsto x hx hy)
  refine ge_of_tendsto h ?_
  filter_upwards [Filter.eventually_ge_atTop n] with m hm
  exact fU_conv _ (by linarith) m n hm

/-- The distance of a convergent from the limit, by the difference from the one before. -/
theorem conv_limit (x : ℝ) (hx : 0 < x) (hy : 7 ≤ Real.pi*x^2) (n : Nat) :
    ‖climit x - conv (Real.pi*x^2) (n+1)‖ ≤ ‖conv (Real.pi*x^2) (n+1) - conv (Real.pi*x^2) n‖ * (1 + (6*n+1+Real.pi*x^2) / (Real.pi*x^2)) := by
  have h := conv_error (Real.pi*x^2) (by linarith) (climit x) n (fU_limit x hx hy n)
  have hr := fB_norm_ratio_le (Real.pi*x^2) (by linarith) n
  set y := Real.pi*x^2
  have h1 : ‖climit x - conv y n‖ ≤ ‖conv y (n+1) - conv y n‖ * ((6*n+1+y)/y) := by
    refine h.trans (mul_le_mul_of_nonneg_left ?_ (norm_nonneg _))
    exact div_le_div_of_nonneg_right hr (by linarith)
  have h2 : climit x - conv y (n+1) = (climit x - conv y n) - (conv y (n+1) - conv y n) := by ring
  rw [h2]
  refine (norm_sub_le _ _).trans ?_
  linarith

/-! ## The loop -/

theorem invVal_eq (tol : ℝ) (ht : tol < 1) (c : ℂ) (hc : 1 ≤ |c.re|) : Cplx.invVal tol c = .ok c⁻¹ := by
  have h1 : 1 ≤ c.re * c.re := by
    have := abs_mul_abs_self c.re
    nlinarith
  have h2 : 1 ≤ Cplx.zComplexSqrAbs c := by
    unfold Cplx.zComplexSqrAbs
    nlinarith [mul_self_nonneg c.im]
  unfold Cplx.invVal
  dsimp only
  rw [if_neg (by rw [abs_of_nonneg (by linarith)]; linarith)]
  congr 1
  apply Complex.ext
  · rw [Complex.inv_re, Complex.normSq_apply]
    simp only [Cplx.zComplexSqrAbs]
    ring
  · rw [Complex.inv_im, Complex.normSq_apply]
    simp only [Cplx.zComplexSqrAbs]
    ring

/-- The variables after `j` turns. -/
noncomputable def lst (y e : ℝ) (j : Nat) : Lentz := ⟨fb y j, fB y j / fB y (j+1), fA y e (j+1) / fA y e j, fA y e (j+1) / fB y (j+1)⟩

/-- `del` of a turn. -/
noncomputable def ldel (y e : ℝ) (j : Nat) : ℂ := (fA y e (j+2) / fA y e (j+1)) * (fB y (j+1) / fB y (j+2))

theorem lentzStep_eq (tol y e : ℝ) (ht : tol < 1) (h0 : 0 < e) (he : e ≤ 1) (j : Nat) : lentzStep tol j (lst y e j) = .ok (lst y e (j+1), ldel y e j) := by
  have hB0 := (fB_ratio y j).1
  have hB1 := (fB_ratio y (j+1))
  have hB2 := (fB_ratio y (j+2)).1
  have hA1 := fA_ratio y e he j
  have hA0 : fA y e j ≠ 0 ∧ 1 ≤ |(fA y e (j+1) / fA y e j).re| := by
    cases j with
    | zero =>
      have : (fA y e 1 / fA y e 0) = ((1/e : ℝ) : ℂ) := by simp [fA, cfr]
      rw [zero_add, this, Complex.ofReal_re]
      refine ⟨by simp [fA, cfr, h0.ne'], ?_⟩
      rw [abs_of_pos (by positivity), le_div_iff₀ h0]
      linarith
    | succ j =>
      have := fA_ratio y e he j
      refine ⟨this.1, le_trans ?_ (le_abs_self _)⟩
      have h2 := this.2
      push_cast at h2
      have : (0:ℝ) ≤ j := Nat.cast_nonneg j
      linarith
  have ea : ((-(((2*j+1) * (2*j+1+1) : Nat) : ℝ) : ℝ) : ℂ) = -(fa j : ℂ) := by
    unfold fa
    push_cast
    ring
  have eb : (⟨(fb y j).re + 4, (fb y j).im⟩ : ℂ) = fb y (j+1) := by
    apply Complex.ext
    · simp [fb]; ring
    · simp [fb]
  have ed : fB y j / fB y (j+1) * -(fa j : ℂ) + fb y (j+1) = fB y (j+2) / fB y (j+1) := by
    have h := hB1.1
    rw [fB_succ2]
    field_simp
    ring
  have ec : (fA y e (j+1) / fA y e j)⁻¹ * -(fa j : ℂ) + fb y (j+1) = fA y e (j+2) / fA y e (j+1) := by
    have h := hA1.1
    have h' := hA0.1
    rw [fA_succ2]
    field_simp
    ring
  have hd : Cplx.invVal tol (fB y (j+2) / fB y (j+1)) = .ok (fB y (j+2) / fB y (j+1))⁻¹ := by
    refine invVal_eq tol ht _ (le_trans ?_ (le_abs_self _))
    have h2 := hB1.2
    push_cast at h2
    have : (0:ℝ) ≤ j := Nat.cast_nonneg j
    linarith
  have hcc : Cplx.invVal tol (fA y e (j+1) / fA y e j) = .ok (fA y e (j+1) / fA y e j)⁻¹ := invVal_eq tol ht _ hA0.2
  unfold lentzStep
  simp only [lst]
  rw [ea, eb, ed, hd, hcc]
  rw [inv_div] at ec
  simp only [Res.bind, ec, inv_div]
  unfold ldel
  have := hA1.1
  have hB1' := hB1.1
  have eh : fA y e (j+1) / fB y (j+1) * (fA y e (j+2) / fA y e (j+1) * (fB y (j+1) / fB y (j+2))) = fA y e (j+2) / fB y (j+2) := by field_simp
  rw [eh]

theorem lentzLoop_stop (tol y e : ℝ) (ht : tol < 1) (h0 : 0 < e) (he : e ≤ 1) (k : Nat) : ∀ j m : Nat, j ≤ m → m < j + k → (|(ldel y e m).re - 1| ≤ tol ∧ |(ldel y e m).im| ≤ tol) →
    ∃ i, j ≤ i ∧ i ≤ m ∧ (|(ldel y e i).re - 1| ≤ tol ∧ |(ldel y e i).im| ≤ tol) ∧ lentzLoop tol k j (lst y e j) = .ok (fA y e (i+2) / fB y (i+2), true) := by
  induction k with
  | zero => intro j m h1 h2; omega
  | succ k ih =>
    intro j m h1 h2 h
    unfold lentzLoop
    rw [lentzStep_eq tol y e ht h0 he j]
    simp only [Res.bind]
    by_cases hj : |(ldel y e j).re - 1| ≤ tol ∧ |(ldel y e j).im| ≤ tol
    · rw [if_pos hj]
      exact ⟨j, le_refl _, h1, hj, rfl⟩
    · rw [if_neg hj]
      have hne : j ≠ m := fun h3 => hj (by rw [h3]; exact h)
      obtain ⟨i, a, b, c, d⟩ := ih (j+1) m (by omega) (by omega) h
      exact ⟨i, by omega, b, c, d⟩

/-- The convergents of the loop. -/
noncomputable def econv (y e : ℝ) (n : Nat) : ℂ := fA y e n / fB y n

theorem econv_eq (y e : ℝ) (n : Nat) : econv y e n = conv y n + e * (1 - fb y 0 * conv y n) := by
  have := (fB_ratio y n).1
  unfold econv conv
  rw [fA_eps]
  field_simp

theorem ldel_eq (y e : ℝ) (he : e ≤ 1) (j : Nat) : (ldel y e j - 1) * econv y e (j+1) = (1 - e * fb y 0) * (conv y (j+2) - conv y (j+1)) := by
  have h1 := (fB_ratio y (j+1)).1
  have h2 := (fB_ratio y (j+2)).1
  have h3 := (fA_ratio y e he j).1
  have : (ldel y e j - 1) * econv y e (j+1) = econv y e (j+2) - econv y e (j+1) := by
    unfold ldel econv
    field_simp
  rw [this, econv_eq, econv_eq]
  ring

theorem econv_norm (y e : ℝ) (hy : 7 ≤ y) (h0 : 0 ≤ e) (he : e ≤ 1/10^30) (n : Nat) : ‖econv y e (n+1) - conv y (n+1)‖ ≤ 2*e/y^2 ∧ ‖econv y e (n+1)‖ ≤ 1/y + 2*e/y^2 ∧ 9/10/(1+y) ≤ ‖econv y e (n+1)‖ := by
  obtain ⟨h1, h2⟩ := conv_first y (by linarith) (n+1) (by omega)
  have hd : ‖econv y e (n+1) - conv y (n+1)‖ ≤ 2*e/y^2 := by
    rw [econv_eq, add_sub_cancel_left, norm_mul, Complex.norm_real, Real.norm_eq_abs, abs_of_nonneg h0]
    calc _ ≤ e * (2/y^2) := mul_le_mul_of_nonneg_left h2 h0
      _ = _ := by ring
  refine ⟨hd, ?_, ?_⟩
  · have := norm_sub_norm_le (econv y e (n+1)) (conv y (n+1))
    linarith
  · have h3 := norm_sub_norm_le (conv y (n+1)) (econv y e (n+1))
    rw [norm_sub_rev] at h3
    have hb := fb_norm y (by linarith) 0
    simp only [Nat.cast_zero, mul_zero, zero_add] at hb
    have h4 : 1 - 2/y^2 ≤ ‖fb y 0‖ * ‖conv y (n+1)‖ := by
      have := norm_sub_norm_le (1:ℂ) (fb y 0 * conv y (n+1))
      rw [norm_one, norm_mul] at this
      linarith
    have h5 : (1:ℝ) - 2/y^2 ≥ 47/49 := by
      have : 2/y^2 ≤ 2/49 := div_le_div_of_nonneg_left (by norm_num) (by norm_num) (by nlinarith)
      linarith
    have h6 : 47/49 ≤ (1+y) * ‖conv y (n+1)‖ := by
      have := mul_le_mul_of_nonneg_right hb (norm_nonneg (conv y (n+1)))
      linarith
    have h7 : (1+y) * (2*e/y^2) ≤ 1/100 := by
      rw [← mul_div_assoc, div_le_iff₀ (by positivity)]
      have : e ≤ 1/1000 := he.trans (by norm_num)
      nlinarith
    rw [div_le_iff₀ (by linarith)]
    nlinarith

/-- The test is met by the turn 160. -/
theorem ldel_tiny (y e : ℝ) (hy : 7 ≤ y) (h0 : 0 < e) (he : e ≤ 1/10^30) : ‖ldel y e 160 - 1‖ ≤ 1/10^12 := by
  have h := congrArg norm (ldel_eq y e (he.trans (by norm_num)) 160)
  rw [norm_mul, norm_mul] at h
  obtain ⟨-, -, h3⟩ := econv_norm y e hy h0.le he 160
  have hy0 : 0 < y := by linarith
  have hd := conv_diff_le y hy0 161
  have hs := dsum_choose y hy 160
  have hc : (64 * 10^10 : ℝ) ≤ ((160+8).choose 7 : ℝ) := by
    have : 640000000000 ≤ (160+8).choose 7 := by decide +kernel
    generalize (160+8).choose 7 = c at this
    have e : (64 * 10^10 : ℝ) = ((640000000000 : ℕ) : ℝ) := by norm_num
    rw [e]
    exact_mod_cast this
  have hs2 : (1+y^2)/2 * (8 * 10^10) ≤ dsum y 161 := by
    refine le_trans ?_ hs
    refine mul_le_mul_of_nonneg_left ?_ (by positivity)
    linarith
  have hb := fb_norm y hy0.le 0
  simp only [Nat.cast_zero, mul_zero, zero_add] at hb
  have hn : ‖(1 - e * fb y 0 : ℂ)‖ ≤ 1 + e*(1+y) := by
    refine (norm_sub_le _ _).trans ?_
    rw [norm_one, norm_mul, Complex.norm_real, Real.norm_eq_abs, abs_of_pos h0]
    have := mul_le_mul_of_nonneg_left hb h0.le
    linarith
  have hD : ‖conv y (160+2) - conv y (160+1)‖ * (y * (1+y^2) * (4*10^10)) ≤ 1 := by
    have h1 := (le_div_iff₀ (by have := (dsum_pos y 161).2; positivity)).1 hd
    refine le_trans (mul_le_mul_of_nonneg_left ?_ (norm_nonneg _)) h1
    nlinarith
  rw [div_le_iff₀ (by linarith)] at h3
  have hq := norm_nonneg (ldel y e 160 - 1)
  have hD0 := norm_nonneg (conv y (160+2) - conv y (160+1))
  have hE0 := norm_nonneg (econv y e (160+1))
  generalize ‖ldel y e 160 - 1‖ = q at *
  generalize ‖conv y (160+2) - conv y (160+1)‖ = D at *
  generalize ‖econv y e (160+1)‖ = E at *
  generalize ‖(1 - e * fb y 0 : ℂ)‖ = N at *
  have hN : N * (1+y) ≤ 36/1000 * (y * (1+y^2)) := by
    have he' : e ≤ 1/1000 := he.trans (by norm_num)
    have h1 : N ≤ 1 + 1/1000*(1+y) := by nlinarith
    have h2 : N * (1+y) ≤ (1 + 1/1000*(1+y)) * (1+y) := mul_le_mul_of_nonneg_right h1 (by linarith)
    refine h2.trans ?_
    have h4 : 7 * (1+y^2) ≤ y * (1+y^2) := mul_le_mul_of_nonneg_right hy (by positivity)
    nlinarith
  have h5 : q * (9/10) ≤ q * (E * (1+y)) := mul_le_mul_of_nonneg_left h3 hq
  have h6 : q * (E * (1+y)) = N * (1+y) * D := by linear_combination (1+y) * h
  have h7 : N * (1+y) * D ≤ 36/1000 * (y * (1+y^2)) * D := mul_le_mul_of_nonneg_right hN hD0
  have h8 : 36/1000 * (y * (1+y^2)) * D ≤ 9/10 * (1/10^12) := by nlinarith
  linarith

theorem tiny_norm (c : ℂ) (tol : ℝ) (h : |c.re - 1| ≤ tol ∧ |c.im| ≤ tol) : ‖c - 1‖ ≤ 1415/1000 * tol := by
  have ht : 0 ≤ tol := (abs_nonneg _).trans h.1
  have h1 := sq_le_sq' (by linarith [(abs_le.1 h.1).1]) (abs_le.1 h.1).2
  have h2 := sq_le_sq' (by linarith [(abs_le.1 h.2).1]) (abs_le.1 h.2).2
  refine abs_le_of_sq_le_sq' ?_ (by positivity) |>.2
  rw [← Complex.normSq_eq_norm_sq, Complex.normSq_apply]
  simp
  nlinarith

/-- The result of the loop is near the limit. -/
theorem lentz_close (x e : ℝ) (hx : 3/2 < x) (h0 : 0 < e) (he : e ≤ 1/10^30) (j : Nat) (hj : j ≤ 160) (h : ‖ldel (Real.pi*x^2) e j - 1‖ ≤ 1415/1000 * (1/10^12)) :
    x * ‖climit x - econv (Real.pi*x^2) e (j+2)‖ ≤ 5/10^11 := by
  have hp := Real.pi_gt_d2
  have hy : 7 ≤ Real.pi*x^2 := by nlinarith
  have hl := conv_limit x (by linarith) hy (j+1)
  have hxy : x / (Real.pi*x^2) ≤ 213/1000 := by
    rw [div_le_iff₀ (by linarith)]
    nlinarith
  set y := Real.pi*x^2
  have hy0 : 0 < y := by linarith
  obtain ⟨h1, -, -⟩ := econv_norm y e hy h0.le he (j+1)
  obtain ⟨-, h2, -⟩ := econv_norm y e hy h0.le he j
  have hd := congrArg norm (ldel_eq y e (he.trans (by norm_num)) j)
  rw [norm_mul, norm_mul] at hd
  have hN : 999/1000 ≤ ‖(1 - e * fb y 0 : ℂ)‖ := by
    refine le_trans ?_ ((le_abs_self _).trans (Complex.abs_re_le_norm _))
    have he' : e ≤ 1/1000 := he.trans (by norm_num)
    simp [fb]
    linarith
  have e1 : 2*e/y^2 ≤ 1/1000/10^12/y := by
    rw [div_le_div_iff₀ (by positivity) hy0]
    have he' : e ≤ 1/10^20 := he.trans (by norm_num)
    nlinarith
  have hE : ‖econv y e (j+1)‖ ≤ 1001/1000 / y := by
    refine h2.trans ?_
    have : (1001/1000 : ℝ) / y = 1/y + 1/1000/y := by ring
    rw [this]
    have h3 : (1/1000/10^12 : ℝ)/y ≤ 1/1000/y := div_le_div_of_nonneg_right (by norm_num) hy0.le
    linarith
  have hD : ‖conv y (j+2) - conv y (j+1)‖ ≤ 142/100 * (1/10^12) / y := by
    have h3 : 999/1000 * ‖conv y (j+2) - conv y (j+1)‖ ≤ 1415/1000 * (1/10^12) * (1001/1000 / y) := by
      calc _ ≤ ‖(1 - e * fb y 0 : ℂ)‖ * ‖conv y (j+2) - conv y (j+1)‖ := mul_le_mul_of_nonneg_right hN (norm_nonneg _)
        _ = _ := hd.symm
        _ ≤ _ := mul_le_mul h hE (norm_nonneg _) (by norm_num)
    have h4 : (1415/1000 * (1/10^12) * (1001/1000 / y) : ℝ) ≤ 999/1000 * (142/100 * (1/10^12) / y) := by
      rw [show (1415/1000 * (1/10^12) * (1001/1000 / y) : ℝ) = (1415/1000 * (1/10^12) * (1001/1000)) / y by ring, show (999/1000 * (142/100 * (1/10^12) / y) : ℝ) = (999/1000 * (142/100 * (1/10^12))) / y by ring]
      exact div_le_div_of_nonneg_right (by norm_num) hy0.le
    linarith
  have hK : 1 + (6*((j+1:Nat):ℝ)+1+y)/y ≤ 142 := by
    have hj' : (j:ℝ) ≤ 160 := by exact_mod_cast hj
    have : (6*((j+1:Nat):ℝ)+1+y)/y ≤ 141 := by
      rw [div_le_iff₀ hy0]
      push_cast
      linarith
    linarith
  have hL : ‖climit x - conv y (j+2)‖ ≤ 142/100 * (1/10^12) / y * 142 := hl.trans (mul_le_mul hD hK (by positivity) (by positivity))
  have hT : ‖climit x - econv y e (j+2)‖ ≤ (202 * (1/10^12)) / y := by
    have h3 : climit x - econv y e (j+2) = (climit x - conv y (j+2)) - (econv y e (j+2) - conv y (j+2)) := by ring
    rw [h3]
    refine (norm_sub_le _ _).trans ?_
    have h4 : (202 * (1/10^12)) / y = 142/100 * (1/10^12) / y * 142 + (36/100 * (1/10^12)) / y := by ring
    rw [h4]
    have h5 : (1/1000/10^12 : ℝ)/y ≤ (36/100 * (1/10^12)) / y := div_le_div_of_nonneg_right (by norm_num) hy0.le
    linarith
  calc _ ≤ x * ((202 * (1/10^12)) / y) := mul_le_mul_of_nonneg_left hT (by linarith)
    _ = x / y * (202 * (1/10^12)) := by ring
    _ ≤ 213/1000 * (202 * (1/10^12)) := mul_le_mul_of_nonneg_right hxy (by norm_num)
    _ ≤ _ := by norm_num

/-- C122, the continued fraction: for every x above 1.5 no divisor is refused, it stops in at most 161 turns, and the values are the integrals up to 5 10^-11. -/
theorem zFresnelIntgLentz_accurate (limit : Nat) (hl : 162 ≤ limit) (x : ℝ) (hx : 3/2 < x) :
    ∃ s c, zFresnelIntgLentz (1/10^12) limit x = .ok (s, c, true) ∧ |s - fresS (Real.pi/2) x| ≤ 5/10^11 ∧ |c - fresC (Real.pi/2) x| ≤ 5/10^11 := by
  have hp := Real.pi_gt_d2
  have hy : 7 ≤ Real.pi*x^2 := by nlinarith
  have eb : (⟨1, -(Real.pi/2*x*x)*2⟩ : ℂ) = fb (Real.pi*x^2) 0 := by
    apply Complex.ext
    · simp [fb]
    · simp [fb]; ring
  have hi : Cplx.invVal (1/10^12) (fb (Real.pi*x^2) 0) = .ok (fb (Real.pi*x^2) 0)⁻¹ := invVal_eq _ (by norm_num) _ (by simp [fb])
  have e0 : (⟨fb (Real.pi*x^2) 0, (fb (Real.pi*x^2) 0)⁻¹, ((1/1.0e-30 : ℝ) : ℂ), (fb (Real.pi*x^2) 0)⁻¹⟩ : Lentz) = lst (Real.pi*x^2) 1.0e-30 0 := by
    simp [lst, fA, fB, cfr]
  have ht := ldel_tiny (Real.pi*x^2) 1.0e-30 hy (by norm_num) (by norm_num)
  have ht2 : |(ldel (Real.pi*x^2) 1.0e-30 160).re - 1| ≤ 1/10^12 ∧ |(ldel (Real.pi*x^2) 1.0e-30 160).im| ≤ 1/10^12 := by
    constructor
    · refine le_trans ?_ ((Complex.abs_re_le_norm _).trans ht)
      simp
    · refine le_trans ?_ ((Complex.abs_im_le_norm _).trans ht)
      simp
  obtain ⟨j, -, hj, hd, hloop⟩ := lentzLoop_stop (1/10^12) (Real.pi*x^2) 1.0e-30 (by norm_num) (by norm_num) (by norm_num) (limit-1) 0 160 (by omega) (by omega) ht2
  have hc := lentz_close x 1.0e-30 hx (by norm_num) (by norm_num) j hj (tiny_norm _ _ hd)
  have hf := fres_kI x (by linarith)
  change _ = (1+Complex.I)/2 - x * climit x * _ at hf
  unfold zFresnelIntgLentz
  dsimp only
  rw [eb, hi]
  simp only [Res.bind]
  rw [e0, hloop]
  simp only [Res.bind]
  change x * ‖climit x - fA (Real.pi*x^2) 1.0e-30 (j+2) / fB (Real.pi*x^2) (j+2)‖ ≤ _ at hc
  generalize fA (Real.pi*x^2) 1.0e-30 (j+2) / fB (Real.pi*x^2) (j+2) = h at hc ⊢
  have ex : Complex.exp (Complex.I * (Real.pi/2 * x^2 : ℝ)) = ⟨Real.cos (Real.pi/2*x*x), Real.sin (Real.pi/2*x*x)⟩ := by
    rw [mul_comm, Complex.exp_mul_I, show Real.pi/2*x*x = Real.pi/2*x^2 by ring, ← Complex.ofReal_cos, ← Complex.ofReal_sin]
    generalize Real.pi/2*x^2 = u
    apply Complex.ext <;> simp [Complex.cos_ofReal_re, Complex.sin_ofReal_re]
  set sp := Real.sin (Real.pi/2*x*x)
  set cp := Real.cos (Real.pi/2*x*x)
  refine ⟨_, _, rfl, ?_⟩
  have main : (⟨0.5*(1-(cp*((h.re+h.im)*x) - sp*((-h.re+h.im)*x)) + (cp*((-h.re+h.im)*x) + sp*((h.re+h.im)*x))), 0.5*(1-(cp*((h.re+h.im)*x) - sp*((-h.re+h.im)*x)) - (cp*((-h.re+h.im)*x) + sp*((h.re+h.im)*x)))⟩ : ℂ)
      - ((fresC (Real.pi/2) x : ℂ) + fresS (Real.pi/2) x * Complex.I) = x * (climit x - h) * ⟨cp, sp⟩ := by
    rw [hf, ex]
    have e2 : ((1+Complex.I)/2 : ℂ) = ⟨1/2, 1/2⟩ := by
      apply Complex.ext <;> simp
    rw [e2]
    apply Complex.ext
    · simp
      ring
    · simp
      ring
  have hn : ‖(x * (climit x - h) * ⟨cp, sp⟩ : ℂ)‖ ≤ 5/10^11 := by
    rw [norm_mul, norm_mul, Complex.norm_real, Real.norm_eq_abs, abs_of_pos (by linarith), ← ex]
    rw [mul_comm Complex.I, Complex.norm_exp_ofReal_mul_I, mul_one]
    exact hc
  rw [← main] at hn
  constructor
  · refine le_trans (le_of_eq ?_) ((Complex.abs_im_le_norm _).trans hn)
    simp
  · refine le_trans (le_of_eq ?_) ((Complex.abs_re_le_norm _).trans hn)
    simp

/-- C122, `zFresnelIntgPI_2` for every number: it succeeds, and the values are the integrals up to 5 10^-11. -/
theorem zFresnelIntgPI_2_accurate (limit : Nat) (hl : 162 ≤ limit) (x : ℝ) :
    ∃ s c, zFresnelIntgPI_2 (1/10^12) limit x = (s, c, true) ∧ |s - fresS (Real.pi/2) x| ≤ 5/10^11 ∧ |c - fresC (Real.pi/2) x| ≤ 5/10^11 := by
  by_cases hx : |x| ≤ 3/2
  · obtain ⟨s, c, e, h1, h2⟩ := zFresnelIntgPI_2_series limit (by omega) x hx
    exact ⟨s, c, e, by linarith, by linarith⟩
  · push Not at hx
    obtain ⟨s, c, e, h1, h2⟩ := zFresnelIntgLentz_accurate limit hl |x| hx
    have hs : Real.sqrt 1.0e-30 < |x| := by
      refine lt_trans ?_ hx
      rw [Real.sqrt_lt' (by norm_num)]
      norm_num
    have el : lentz (1/10^12) limit |x| = (s, c, true) := by
      unfold lentz
      rw [e]
    unfold zFresnelIntgPI_2
    dsimp only
    rw [if_neg (not_lt.2 hs.le), if_neg (not_le.2 (by norm_num; linarith)), el]
    by_cases hn : x < 0
    · rw [if_pos hn]
      refine ⟨-s, -c, rfl, ?_⟩
      rw [abs_of_neg hn, (fres_neg (Real.pi/2) x).1] at h1
      rw [abs_of_neg hn, (fres_neg (Real.pi/2) x).2] at h2
      constructor
      · rw [← abs_neg]; convert h1 using 2; ring
      · rw [← abs_neg]; convert h2 using 2; ring
    · rw [if_neg hn]
      rw [abs_of_nonneg (not_lt.1 hn)] at h1 h2
      exact ⟨s, c, rfl, h1, h2⟩

/-- C122, `zFresnelIntgScale` with the integrals of the library, for every number and every factor above the tolerance. -/
theorem zFresnelIntgScale_accurate (limit : Nat) (hl : 162 ≤ limit) (x f : ℝ) (hf : 1/10^12 < |f|) :
    ∃ s c, zFresnelIntgScale (1/10^12) (zFresnelIntgPI_2 (1/10^12) limit) x f = (s, c, true) ∧ |s - fresS f x| ≤ Real.sqrt (Real.pi/2/|f|) * (5/10^11) ∧
      |c - fresC f x| ≤ Real.sqrt (Real.pi/2/|f|) * (5/10^11) := by
  obtain ⟨s, c, e, h1, h2⟩ := zFresnelIntgPI_2_accurate limit hl (x / fscale f)
  have h := (zFresnelIntgScale_error (1/10^12) (by norm_num) (zFresnelIntgPI_2 (1/10^12) limit) x f (5/10^11) (fun _ => by rw [e]; exact ⟨h1, h2⟩)).1 hf
  rw [e] at h
  exact ⟨_, _, Prod.ext rfl (Prod.ext rfl h.2.2), h.1, h.2.1⟩

/-- C122, `zFresnelIntg` for every number. -/
theorem zFresnelIntg_accurate (limit : Nat) (hl : 162 ≤ limit) (x : ℝ) :
    ∃ s c, zFresnelIntg (1/10^12) (zFresnelIntgPI_2 (1/10^12) limit) x = (s, c, true) ∧ |s - ∫ t in (0:ℝ)..x, Real.sin (t^2)| ≤ 7/10^11 ∧
      |c - ∫ t in (0:ℝ)..x, Real.cos (t^2)| ≤ 7/10^11 := by
  obtain ⟨s, c, e, h1, h2⟩ := zFresnelIntgScale_accurate limit hl x 1 (by norm_num)
  have hs : Real.sqrt (Real.pi/2/|1|) ≤ 13/10 := by
    rw [Real.sqrt_le_left (by norm_num), abs_one]
    have := Real.pi_lt_d2
    norm_num at this ⊢
    linarith
  simp only [fresS, fresC, one_mul] at h1 h2
  exact ⟨s, c, e, by linarith, by linarith⟩

/-- C122, `zFresnelIntgGen` with the integrals of the library, for every number and every quadratic term above the tolerance. -/
theorem zFresnelIntgGen_accurate (limit : Nat) (hl : 162 ≤ limit) (x f0 f1 f2 : ℝ) (hf : 1/10^12 < |f2|) :
    ∃ s c, zFresnelIntgGen (1/10^12) (zFresnelIntgPI_2 (1/10^12) limit) x f0 f1 f2 = (s, c, true) ∧
      |s - ∫ t in (0:ℝ)..x, Real.sin (f0 + f1*t + f2*t^2)| ≤ Real.sqrt (Real.pi/2/|f2|) * (2/10^10) ∧
      |c - ∫ t in (0:ℝ)..x, Real.cos (f0 + f1*t + f2*t^2)| ≤ Real.sqrt (Real.pi/2/|f2|) * (2/10^10) := by
  obtain ⟨s1, c1, e1, a1, b1⟩ := zFresnelIntgScale_accurate limit hl (x + 0.5*f1/f2) f2 hf
  obtain ⟨s2, c2, e2, a2, b2⟩ := zFresnelIntgScale_accurate limit hl (0.5*f1/f2) f2 hf
  obtain ⟨h1, h2⟩ := zFresnelIntgGen_error (1/10^12) (by norm_num) (zFresnelIntgPI_2 (1/10^12) limit) x f0 f1 f2 _ _ hf (by rw [e1]; exact ⟨a1, b1⟩) (by rw [e2]; exact ⟨a2, b2⟩)
  have h3 : (zFresnelIntgGen (1/10^12) (zFresnelIntgPI_2 (1/10^12) limit) x f0 f1 f2).2.2 = true := by
    unfold zFresnelIntgGen
    rw [if_neg (not_le.2 hf), e1, e2]
    rfl
  refine ⟨_, _, Prod.ext rfl (Prod.ext rfl h3), h1.trans (le_of_eq ?_), h2.trans (le_of_eq ?_)⟩
  · ring
  · ring

/-- The continued fraction is used for 2, with the limit of the library. -/
example : ∃ s c, zFresnelIntgPI_2 (1/10^12) 10000 2 = (s, c, true) ∧ |s - fresS (Real.pi/2) 2| ≤ 5/10^11 := by
  obtain ⟨s, c, e, h, -⟩ := zFresnelIntgPI_2_accurate 10000 (by norm_num) 2
  exact ⟨s, c, e, h⟩

end Zm.SF
