import Verif.Model.Phase
import Mathlib.Analysis.SpecialFunctions.Trigonometric.Deriv
import Mathlib.Analysis.SpecialFunctions.ExpDeriv
import Mathlib.Analysis.Calculus.Deriv.MeanValue
import Mathlib.Analysis.SpecialFunctions.Log.Basic
import Mathlib.Analysis.SpecialFunctions.Pow.Real
import Mathlib.Tactic.Linarith
import Mathlib.Tactic.FieldSimp

/-!
# C213: angles, cycloids, the sigmoid function and rounding
-/

set_option linter.unusedSectionVars false
namespace Zm.Phase
open Zm
noncomputable section

/-- C213: a normalised angle is above `-π`, at most `π`, and differs from the angle by whole turns. -/
theorem zPhaseNormalize_spec (angle : ℝ) :
    -Real.pi < zPhaseNormalize angle ∧ zPhaseNormalize angle ≤ Real.pi ∧ ∃ n : ℤ, angle = zPhaseNormalize angle + 2 * Real.pi * n := by
  have h : zPhaseNormalize angle = toIocMod Real.two_pi_pos (-Real.pi) angle := by
    unfold zPhaseNormalize atan2 zSinCos
    have : (⟨Real.cos angle, Real.sin angle⟩ : ℂ) = Complex.cos angle + Complex.sin angle * Complex.I := by
      apply Complex.ext <;> simp [← Complex.ofReal_cos, ← Complex.ofReal_sin]
    dsimp only
    rw [this, Complex.arg_cos_add_sin_mul_I_eq_toIocMod]
  have hm := toIocMod_mem_Ioc Real.two_pi_pos (-Real.pi) angle
  rw [← h] at hm
  refine ⟨hm.1, by linarith [hm.2], toIocDiv Real.two_pi_pos (-Real.pi) angle, ?_⟩
  have := toIocMod_add_toIocDiv_zsmul Real.two_pi_pos (-Real.pi) angle
  rw [← h, zsmul_eq_mul] at this
  linarith

/-- C213: there is no other such angle; hence angles that differ by whole turns are normalised to the same one. -/
theorem zPhaseNormalize_unique (angle x : ℝ) (n : ℤ) (h0 : -Real.pi < x) (h1 : x ≤ Real.pi) (h : angle = x + 2 * Real.pi * n) : zPhaseNormalize angle = x := by
  obtain ⟨g0, g1, m, g⟩ := zPhaseNormalize_spec angle
  have hp := Real.pi_pos
  have e : x - zPhaseNormalize angle = 2 * Real.pi * ((m - n : ℤ) : ℝ) := by push_cast; linarith
  have : m - n = 0 := by
    have h1' : ((m - n : ℤ) : ℝ) < 1 := by
      by_contra hc
      have : 2 * Real.pi * 1 ≤ 2 * Real.pi * ((m - n : ℤ) : ℝ) := by
        apply mul_le_mul_of_nonneg_left (not_lt.1 hc) (by positivity)
      linarith
    have h2' : (-1 : ℝ) < ((m - n : ℤ) : ℝ) := by
      by_contra hc
      have : 2 * Real.pi * ((m - n : ℤ) : ℝ) ≤ 2 * Real.pi * (-1) := by
        apply mul_le_mul_of_nonneg_left (not_lt.1 hc) (by positivity)
      linarith
    have h3 : m - n < 1 := by exact_mod_cast h1'
    have h4 : -1 < m - n := by exact_mod_cast h2'
    omega
  rw [this] at e
  push_cast at e
  linarith

/-- C213: the sine and the cosine are on the unit circle, and are those of the normalised angle. -/
theorem zSinCos_spec (angle : ℝ) :
    (zSinCos angle).1 = Real.sin angle ∧ (zSinCos angle).2 = Real.cos angle ∧ zSinCos (zPhaseNormalize angle) = zSinCos angle := by
  obtain ⟨_, _, n, h⟩ := zPhaseNormalize_spec angle
  refine ⟨rfl, rfl, ?_⟩
  unfold zSinCos
  conv_rhs => rw [h]
  rw [show zPhaseNormalize angle + 2 * Real.pi * n = zPhaseNormalize angle + n * (2 * Real.pi) by ring, Real.sin_add_int_mul_two_pi, Real.cos_add_int_mul_two_pi]

/-- C213: a cycloid starts at rest at (0,0) and comes to rest at (1,0); in between it advances without turning back, with a height between zero and one, which is half of the speed of advance, and its two halves mirror each other. -/
theorem zCycloid_spec :
    zCycloidX 0 = 0 ∧ zCycloidX 1 = 1 ∧ Monotone zCycloidX ∧
    (∀ p, HasDerivAt zCycloidX (2 * zCycloidY p) p) ∧ (∀ p, 0 ≤ zCycloidY p ∧ zCycloidY p ≤ 1) ∧
    zCycloidY 0 = 0 ∧ zCycloidY 1 = 0 ∧ zCycloidY (1 / 2) = 1 ∧
    (∀ p, zCycloidX (1 - p) = 1 - zCycloidX p ∧ zCycloidY (1 - p) = zCycloidY p) := by
  have hpi : (2 * Real.pi) ≠ 0 := by positivity
  have hd : ∀ p, HasDerivAt zCycloidX (2 * zCycloidY p) p := by
    intro p
    have h1 : HasDerivAt (fun p : ℝ => 2 * Real.pi * p) (2 * Real.pi * 1) p := (hasDerivAt_id p).const_mul _
    have h2 := (hasDerivAt_id p).sub ((h1.sin).div_const (2 * Real.pi))
    refine HasDerivAt.congr_deriv (f := zCycloidX) h2 ?_
    unfold zCycloidY
    field_simp
  have hy : ∀ p, 0 ≤ zCycloidY p ∧ zCycloidY p ≤ 1 := by
    intro p
    have := Real.cos_le_one (2 * Real.pi * p)
    have := Real.neg_one_le_cos (2 * Real.pi * p)
    unfold zCycloidY
    constructor <;> linarith
  refine ⟨by simp [zCycloidX], by simp [zCycloidX], ?_, hd, hy, by simp [zCycloidY], by simp [zCycloidY], ?_, ?_⟩
  · apply monotone_of_deriv_nonneg
    · intro p; exact (hd p).differentiableAt
    · intro p; rw [(hd p).deriv]; linarith [(hy p).1]
  · unfold zCycloidY
    rw [show 2 * Real.pi * (1 / 2) = Real.pi by ring, Real.cos_pi]; norm_num
  · intro p
    unfold zCycloidX zCycloidY
    rw [show 2 * Real.pi * (1 - p) = 2 * Real.pi - 2 * Real.pi * p by ring, Real.sin_two_pi_sub, Real.cos_two_pi_sub]
    exact ⟨by ring, rfl⟩

/-- C213: the sigmoid function increases strictly between zero and one, is symmetric about (0, 1/2), and has the slope σ(1-σ). -/
theorem zSigmoid_spec :
    StrictMono zSigmoid ∧ zSigmoid 0 = 1 / 2 ∧
    ∀ x, 0 < zSigmoid x ∧ zSigmoid x < 1 ∧ zSigmoid (-x) = 1 - zSigmoid x ∧ HasDerivAt zSigmoid (zSigmoid x * (1 - zSigmoid x)) x := by
  have hp : ∀ x : ℝ, 0 < 1 + Real.exp (-x) := fun x => by positivity
  refine ⟨?_, by unfold zSigmoid; norm_num, ?_⟩
  · intro x y h
    unfold zSigmoid
    apply one_div_lt_one_div_of_lt (hp y)
    linarith [Real.exp_lt_exp.2 (neg_lt_neg h)]
  · intro x
    refine ⟨by unfold zSigmoid; exact one_div_pos.2 (hp x), ?_, ?_, ?_⟩
    · unfold zSigmoid; rw [div_lt_one (hp x)]; linarith [Real.exp_pos (-x)]
    · unfold zSigmoid
      rw [neg_neg, Real.exp_neg]
      have := Real.exp_pos x
      field_simp
      ring
    · have h1 : HasDerivAt (fun x : ℝ => 1 + Real.exp (-x)) (Real.exp (-x) * (-1)) x := ((hasDerivAt_neg x).exp).const_add 1
      have h2 := h1.inv (hp x).ne'
      have e : zSigmoid = (fun x : ℝ => 1 + Real.exp (-x))⁻¹ := by
        funext y; unfold zSigmoid; simp
      rw [e]
      refine HasDerivAt.congr_deriv h2 ?_
      simp only [Pi.inv_apply]
      have := hp x
      field_simp
      ring

/-- C213: rounding away from zero gives the nearest whole number that is not nearer to zero. -/
theorem zCeil_spec (x : ℝ) : (∃ n : ℤ, zCeil x = n) ∧ |x| ≤ |zCeil x| ∧ |zCeil x - x| < 1 ∧ 0 ≤ x * zCeil x := by
  unfold zCeil
  split_ifs with h
  · have h1 := Int.le_ceil x
    have h2 := Int.ceil_lt_add_one x
    have h3 : (0 : ℝ) ≤ (⌈x⌉ : ℝ) := le_trans h h1
    refine ⟨⟨_, rfl⟩, by rw [abs_of_nonneg h, abs_of_nonneg h3]; exact h1, by rw [abs_lt]; constructor <;> linarith, mul_nonneg h h3⟩
  · have h0 : x < 0 := not_le.1 h
    have h1 := Int.floor_le x
    have h2 := Int.lt_floor_add_one x
    have h3 : (⌊x⌋ : ℝ) ≤ 0 := le_trans h1 h0.le
    refine ⟨⟨_, rfl⟩, by rw [abs_of_neg h0, abs_of_nonpos h3]; linarith, by rw [abs_lt]; constructor <;> linarith, mul_nonneg_of_nonpos_of_nonpos h0.le h3⟩

/-- C213: rounding gives the nearest whole number, away from zero where two are equally near, wherever that is an `int`. -/
theorem zRound_spec (x : ℝ) (h0 : -2147483648.5 < x) (h1 : x < 2147483647.5) :
    ∃ n : ℤ, zRound x = .ok (n : ℝ) ∧ |(n : ℝ) - x| ≤ 1 / 2 ∧ (|(n : ℝ) - x| = 1 / 2 → |x| < |(n : ℝ)|) := by
  unfold zRound
  by_cases h : x ≥ 0
  · rw [if_pos h]
    have hx : x + 1 / 2 ≥ 0 := by linarith
    have a := Int.floor_le (x + 1 / 2)
    have b := Int.lt_floor_add_one (x + 1 / 2)
    have c : (0 : ℤ) ≤ ⌊x + 1 / 2⌋ := Int.floor_nonneg.2 hx
    have c' : (0 : ℝ) ≤ (⌊x + 1 / 2⌋ : ℝ) := by exact_mod_cast c
    have d : ⌊x + 1 / 2⌋ < 2147483648 := by
      rw [Int.floor_lt]; norm_num at h1 ⊢; linarith
    refine ⟨⌊x + 1 / 2⌋, ?_, ?_, ?_⟩
    · unfold toInt
      simp only [hx, if_true]
      rw [if_pos ⟨by omega, by omega⟩]
    · rw [abs_le]; constructor <;> linarith
    · intro e
      rw [abs_of_nonneg h, abs_of_nonneg c']
      rcases abs_cases ((⌊x + 1 / 2⌋ : ℝ) - x) with ⟨q, _⟩ | ⟨q, _⟩ <;> linarith
  · rw [if_neg h]
    have h' : x < 0 := not_le.1 h
    have hx : ¬ (x - 1 / 2 ≥ 0) := by intro hc; linarith
    have a := Int.le_ceil (x - 1 / 2)
    have b := Int.ceil_lt_add_one (x - 1 / 2)
    have c' : (⌈x - 1 / 2⌉ : ℤ) ≤ 0 := by
      rw [Int.ceil_le]; push_cast; linarith
    have c : (⌈x - 1 / 2⌉ : ℝ) ≤ 0 := by exact_mod_cast c'
    have d : -2147483649 < ⌈x - 1 / 2⌉ := by
      rw [Int.lt_ceil]; norm_num at h0 ⊢; linarith
    refine ⟨⌈x - 1 / 2⌉, ?_, ?_, ?_⟩
    · unfold toInt
      simp only [hx, if_false]
      rw [if_pos ⟨by omega, by omega⟩]
    · rw [abs_le]; constructor <;> linarith
    · intro e
      rw [abs_of_neg h', abs_of_nonpos c]
      rcases abs_cases ((⌈x - 1 / 2⌉ : ℝ) - x) with ⟨q, _⟩ | ⟨q, _⟩ <;> linarith

/-- C213: the remainder differs from the dividend by a multiple of the divisor, is less in size than it, and has its sign. -/
theorem zFruct_spec (x y : ℝ) (hy : y ≠ 0) :
    ∃ r, zFruct x y = .ok r ∧ (∃ n : ℤ, x = r + n * y) ∧ |r| < |y| ∧ 0 ≤ r * y := by
  refine ⟨_, if_neg hy, ⟨⌊x / y⌋, by ring⟩, ?_⟩
  have a := Int.floor_le (x / y)
  have b := Int.lt_floor_add_one (x / y)
  rcases lt_or_gt_of_ne hy with h | h
  · rw [le_div_iff_of_neg h] at a
    rw [div_lt_iff_of_neg h] at b
    have r0 : x - (⌊x / y⌋ : ℝ) * y ≤ 0 := by linarith
    rw [abs_of_nonpos r0, abs_of_neg h]
    exact ⟨by linarith, mul_nonneg_of_nonpos_of_nonpos r0 h.le⟩
  · rw [le_div_iff₀ h] at a
    rw [div_lt_iff₀ h] at b
    have r0 : 0 ≤ x - (⌊x / y⌋ : ℝ) * y := by linarith
    rw [abs_of_nonneg r0, abs_of_pos h]
    exact ⟨by linarith, mul_nonneg r0 h.le⟩

/-- C213: the logarithm to a base is the exponent that gives the number. -/
theorem zLog_spec (base x : ℝ) (hb : 0 < base) (hb1 : base ≠ 1) (hx : 0 < x) : ∃ l, zLog base x = .ok l ∧ base ^ l = x := by
  have h : Real.log base ≠ 0 := Real.log_ne_zero_of_pos_of_ne_one hb hb1
  refine ⟨_, if_neg h, ?_⟩
  rw [Real.rpow_def_of_pos hb, mul_div_cancel₀ _ h, Real.exp_log hx]

/-- Concrete numbers: three half turns are a half turn. -/
example : zPhaseNormalize (3 * Real.pi) = Real.pi := zPhaseNormalize_unique _ _ 1 (by linarith [Real.pi_pos]) le_rfl (by push_cast; ring)

/-- Concrete numbers: minus a half turn is normalised to plus a half turn. -/
example : zPhaseNormalize (-Real.pi) = Real.pi := zPhaseNormalize_unique _ _ (-1) (by linarith [Real.pi_pos]) le_rfl (by push_cast; ring)

/-- Concrete numbers for rounding and remainders. -/
example : zRound (5 / 2) = .ok 3 ∧ zFruct 7 3 = .ok 1 := by
  constructor
  · obtain ⟨n, h, a, b⟩ := zRound_spec (5 / 2) (by norm_num) (by norm_num)
    rw [h]
    have e : n = 3 := by
      rw [abs_le] at a
      have h1 : (2 : ℝ) ≤ n := by linarith [a.1]
      have h2 : (n : ℝ) ≤ 3 := by linarith [a.2]
      have h1' : 2 ≤ n := by exact_mod_cast h1
      have h2' : n ≤ 3 := by exact_mod_cast h2
      by_contra hc
      have : n = 2 := by omega
      subst this
      norm_num [abs_of_neg, abs_of_pos] at b
    subst e; norm_num
  · unfold zFruct
    rw [if_neg (by norm_num)]
    have : ⌊(7 : ℝ) / 3⌋ = 2 := by rw [Int.floor_eq_iff]; norm_num
    rw [this]; norm_num

end
end Zm.Phase
