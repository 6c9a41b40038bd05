import Verif.Model.SF
import Mathlib.Analysis.Calculus.MeanValue
import Mathlib.Analysis.SpecialFunctions.ExpDeriv
import Mathlib.Analysis.SpecialFunctions.Integrals.Basic
import Mathlib.Analysis.SpecialFunctions.Gaussian.GaussianIntegral
import Mathlib.Analysis.Real.Pi.Bounds
import Mathlib.Topology.Algebra.Order.Floor

/-!
# Special functions: error function, normal distribution (C121), Fresnel integrals (C122)
-/
set_option linter.unusedSectionVars false

namespace Zm.SF
open Zm Finset MeasureTheory

/-- Remainder of the exponential series in the left half plane. -/
theorem exp_remainder (z : ℂ) (hz : z.re ≤ 0) (n : Nat) : ‖Complex.exp z - ∑ k ∈ range n, z ^ k / k.factorial‖ ≤ ‖z‖ ^ n / n.factorial := by
  have key : ∀ n : Nat, ∀ s : ℝ, s ∈ Set.Icc (0:ℝ) 1 → ‖Complex.exp (s * z) - ∑ k ∈ range n, (s * z) ^ k / k.factorial‖ ≤ (s * ‖z‖) ^ n / n.factorial := by
    intro n
    induction n with
    | zero =>
      intro s hs
      simp only [range_zero, sum_empty, sub_zero, pow_zero, Nat.factorial_zero, Nat.cast_one, div_one]
      rw [Complex.norm_exp]
      refine Real.exp_le_one_iff.2 ?_
      rw [Complex.re_ofReal_mul]
      exact mul_nonpos_of_nonneg_of_nonpos hs.1 hz
    | succ n ih =>
      have hd : ∀ s : ℝ, HasDerivAt (fun s : ℝ => Complex.exp (s * z) - ∑ k ∈ range (n+1), (s * z) ^ k / k.factorial)
          (z * (Complex.exp (s * z) - ∑ k ∈ range n, (s * z) ^ k / k.factorial)) s := by
        intro s
        have h0 : HasDerivAt (fun s : ℝ => (s:ℂ) * z) z s := by
          have := (Complex.ofRealCLM.hasDerivAt (x := s)).mul_const z
          simpa using this
        have h1 := h0.cexp
        have h2 : HasDerivAt (fun s : ℝ => ∑ k ∈ range (n+1), ((s:ℂ) * z) ^ k / k.factorial) (∑ k ∈ range (n+1), ((k:ℂ) * ((s:ℂ) * z) ^ (k-1) * z) / k.factorial) s :=
          HasDerivAt.fun_sum fun k _ => (h0.pow k).div_const _
        have h3 := h1.sub h2
        have e : Complex.exp (s * z) * z - ∑ k ∈ range (n+1), ((k:ℂ) * ((s:ℂ) * z) ^ (k-1) * z) / k.factorial =
            z * (Complex.exp (s * z) - ∑ k ∈ range n, (s * z) ^ k / k.factorial) := by
          rw [sum_range_succ', mul_sub, mul_sum]
          simp only [Nat.cast_zero, zero_mul, zero_div, add_zero]
          congr 1
          · ring
          · refine sum_congr rfl fun k _ => ?_
            rw [Nat.factorial_succ, Nat.add_sub_cancel]
            push_cast
            have a1 : ((k:ℂ) + 1) ≠ 0 := by exact_mod_cast Nat.succ_ne_zero k
            have a2 : (k.factorial : ℂ) ≠ 0 := by exact_mod_cast Nat.factorial_ne_zero k
            field_simp
        rw [← e]
        exact h3
      have hB : ∀ s : ℝ, HasDerivAt (fun s : ℝ => (s * ‖z‖) ^ (n+1) / (n+1).factorial) (‖z‖ * ((s * ‖z‖) ^ n / n.factorial)) s := by
        intro s
        have := (((hasDerivAt_id s).mul_const ‖z‖).pow (n+1)).div_const ((n+1).factorial : ℝ)
        refine HasDerivAt.congr_deriv (f := fun s : ℝ => (s * ‖z‖) ^ (n+1) / (n+1).factorial) this ?_
        rw [Nat.factorial_succ, Nat.add_sub_cancel]
        push_cast
        have a1 : ((n:ℝ) + 1) ≠ 0 := by exact_mod_cast Nat.succ_ne_zero n
        have a2 : (n.factorial : ℝ) ≠ 0 := by exact_mod_cast Nat.factorial_ne_zero n
        simp only [id]
        field_simp
      intro s hs
      refine image_norm_le_of_norm_deriv_right_le_deriv_boundary (a := 0) (b := 1) (fun s _ => (hd s).continuousAt.continuousWithinAt) (fun s _ => (hd s).hasDerivWithinAt) ?_ hB ?_ hs
      · rw [sum_range_succ']
        simp
      · intro t ht
        rw [norm_mul]
        exact mul_le_mul_of_nonneg_left (ih t ⟨ht.1, ht.2.le⟩) (norm_nonneg z)
  have := key n 1 ⟨zero_le_one, le_refl _⟩
  simpa using this

/-! ## Error function -/

/-- Gauss's error function. -/
noncomputable def erf (x : ℝ) : ℝ := 2 / Real.sqrt Real.pi * ∫ t in (0:ℝ)..x, Real.exp (-t ^ 2)

/-- The distribution function of the standard normal distribution. -/
noncomputable def normalCDF (x : ℝ) : ℝ := (∫ t in Set.Iic x, Real.exp (-t ^ 2 / 2)) / Real.sqrt (2 * Real.pi)

theorem erfTerm_spec (x : ℝ) (i : Nat) : erfTerm x i = (-x ^ 2) ^ i / i.factorial := by
  unfold erfTerm
  refine forUp_inv (lo := 1) (hi := i+1) _ _ (fun k d => d = (-x^2) ^ (k-1) / (k-1).factorial) (by omega) (by simp) ?_
  intro k d hk1 hk h
  obtain ⟨m, rfl⟩ : ∃ m, k = m+1 := ⟨k-1, by omega⟩
  simp only [Nat.add_sub_cancel] at h ⊢
  rw [h, Nat.factorial_succ, pow_succ]
  have a1 : ((m:ℝ) + 1) ≠ 0 := by exact_mod_cast Nat.succ_ne_zero m
  have a2 : (m.factorial : ℝ) ≠ 0 := by exact_mod_cast Nat.factorial_ne_zero m
  push_cast
  field_simp
  rw [pow_succ]
  ring

theorem zErfN_spec (x : ℝ) (n : Nat) : zErfN x n = 2 / Real.sqrt Real.pi * ∑ i ∈ range (n+1), (-x ^ 2) ^ i / i.factorial * x / (2*i+1) := by
  unfold zErfN
  rw [forUp_add 0 (n+1) _ 0 (Nat.zero_le _), zero_add, ← range_eq_Ico]
  simp only [erfTerm_spec]
  ring

theorem exp_neg_sq_remainder (t : ℝ) (n : Nat) : ‖Real.exp (-t^2) - ∑ k ∈ range n, (-t^2) ^ k / k.factorial‖ ≤ (t^2) ^ n / n.factorial := by
  have h := exp_remainder ((-t^2 : ℝ) : ℂ) (by rw [Complex.ofReal_re]; nlinarith [sq_nonneg t]) n
  have e : Complex.exp ((-t^2 : ℝ) : ℂ) - ∑ k ∈ range n, ((-t^2 : ℝ) : ℂ) ^ k / k.factorial = ((Real.exp (-t^2) - ∑ k ∈ range n, (-t^2) ^ k / k.factorial : ℝ) : ℂ) := by
    push_cast
    rfl
  rw [e, Complex.norm_real, Complex.norm_real] at h
  refine h.trans (le_of_eq ?_)
  rw [norm_neg, Real.norm_of_nonneg (sq_nonneg t)]

theorem taylor_intg (x : ℝ) (n : Nat) : ∑ i ∈ range n, (-x ^ 2) ^ i / i.factorial * x / (2*i+1) = ∫ t in (0:ℝ)..x, ∑ k ∈ range n, (-t^2) ^ k / k.factorial := by
  rw [intervalIntegral.integral_finsetSum (fun k _ => (Continuous.intervalIntegrable (by fun_prop) _ _))]
  refine sum_congr rfl fun k _ => ?_
  have e : ∀ t : ℝ, (-t^2) ^ k / k.factorial = (-1) ^ k / k.factorial * t ^ (2*k) := by
    intro t
    rw [neg_pow, pow_mul]
    ring
  simp only [e]
  rw [intervalIntegral.integral_const_mul, integral_pow]
  push_cast
  ring

/-- C121, `zErfN`: the error is at most the first term that is left out, for every number of terms. -/
theorem zErfN_error (x : ℝ) (n : Nat) : |zErfN x n - erf x| ≤ 2 / Real.sqrt Real.pi * (|x| ^ (2*n+3) / ((n+1).factorial * (2*n+3))) := by
  have hc : Continuous fun t : ℝ => ∑ k ∈ range (n+1), (-t^2) ^ k / (k.factorial : ℝ) := by fun_prop
  rw [zErfN_spec, taylor_intg, erf, ← mul_sub, abs_mul, abs_of_nonneg (by positivity : (0:ℝ) ≤ 2 / Real.sqrt Real.pi)]
  refine mul_le_mul_of_nonneg_left ?_ (by positivity)
  rw [abs_sub_comm, ← intervalIntegral.integral_sub (Continuous.intervalIntegrable (by fun_prop) _ _) (hc.intervalIntegrable _ _)]
  have hb := intervalIntegral.norm_integral_le_abs_of_norm_le (a := 0) (b := x) (μ := volume) (f := fun t : ℝ => Real.exp (-t^2) - ∑ k ∈ range (n+1), (-t^2) ^ k / k.factorial)
    (g := fun t : ℝ => (t^2) ^ (n+1) / (n+1).factorial) (Filter.Eventually.of_forall fun t => exp_neg_sq_remainder t (n+1)) (Continuous.intervalIntegrable (by fun_prop) _ _)
  refine hb.trans (le_of_eq ?_)
  have e : ∀ t : ℝ, (t^2) ^ (n+1) / ((n+1).factorial : ℝ) = 1 / ((n+1).factorial : ℝ) * t ^ (2*n+2) := by
    intro t
    rw [← pow_mul]
    ring
  simp only [e]
  rw [intervalIntegral.integral_const_mul, integral_pow, abs_mul, abs_of_nonneg (by positivity : (0:ℝ) ≤ 1 / ((n+1).factorial : ℝ)), abs_div, zero_pow (by omega), sub_zero, abs_pow,
    abs_of_nonneg (by positivity : (0:ℝ) ≤ ((2*n+2 : ℕ) : ℝ) + 1)]
  push_cast
  field_simp
  ring

theorem gauss_integrable : Integrable fun t : ℝ => Real.exp (-t ^ 2 / 2) := by
  have := integrable_exp_neg_mul_sq (b := 1/2) (by norm_num)
  refine this.congr (Filter.Eventually.of_forall fun t => ?_)
  dsimp only
  congr 1
  ring

theorem gauss_integral : ∫ t : ℝ, Real.exp (-t ^ 2 / 2) = Real.sqrt (2 * Real.pi) := by
  have := integral_gaussian (1/2)
  rw [show Real.pi / (1/2) = 2 * Real.pi by ring] at this
  rw [← this]
  congr 1
  funext t
  congr 1
  ring

theorem gauss_half : ∫ t in Set.Iic (0:ℝ), Real.exp (-t ^ 2 / 2) = Real.sqrt (2 * Real.pi) / 2 := by
  have := integral_gaussian_Ioi (1/2)
  rw [show Real.pi / (1/2) = 2 * Real.pi by ring] at this
  rw [← this]
  have e := integral_comp_neg_Iic (0:ℝ) (fun t : ℝ => Real.exp (-t ^ 2 / 2))
  rw [neg_zero] at e
  simp only [neg_sq] at e
  rw [e]
  refine setIntegral_congr_fun measurableSet_Ioi fun t _ => ?_
  congr 1
  ring

theorem normalCDF_eq (x : ℝ) : normalCDF x = 1 / 2 * (1 + erf (x / Real.sqrt 2)) := by
  have h2 : Real.sqrt 2 ≠ 0 := by positivity
  have hp : Real.sqrt Real.pi ≠ 0 := (Real.sqrt_pos.2 Real.pi_pos).ne'
  have e1 := intervalIntegral.integral_Iic_sub_Iic (a := 0) (b := x) (gauss_integrable.integrableOn (s := Set.Iic 0)) (gauss_integrable.integrableOn (s := Set.Iic x))
  have e2 : ∫ t in (0:ℝ)..x, Real.exp (-t ^ 2 / 2) = Real.sqrt 2 * ∫ t in (0:ℝ)..x / Real.sqrt 2, Real.exp (-t ^ 2) := by
    have := intervalIntegral.integral_comp_div (a := 0) (b := x) (fun t : ℝ => Real.exp (-t^2)) h2
    rw [zero_div, smul_eq_mul] at this
    rw [← this]
    refine intervalIntegral.integral_congr fun t _ => ?_
    rw [div_pow, Real.sq_sqrt (by norm_num), neg_div]
  rw [normalCDF, erf, eq_add_of_sub_eq e1, e2, gauss_half, Real.sqrt_mul (by norm_num)]
  field_simp
  ring

theorem normalCDF_mem (x : ℝ) : 0 ≤ normalCDF x ∧ normalCDF x ≤ 1 := by
  have hp : 0 < Real.sqrt (2 * Real.pi) := Real.sqrt_pos.2 (by positivity)
  constructor
  · exact div_nonneg (integral_nonneg fun t => (Real.exp_pos _).le) hp.le
  · rw [normalCDF, div_le_one hp, ← gauss_integral]
    exact setIntegral_le_integral gauss_integrable (Filter.Eventually.of_forall fun t => (Real.exp_pos _).le)

/-- The error function has values in [-1,1]. -/
theorem erf_abs_le_one (x : ℝ) : |erf x| ≤ 1 := by
  have h2 : Real.sqrt 2 ≠ 0 := by positivity
  have h := normalCDF_mem (x * Real.sqrt 2)
  rw [normalCDF_eq, mul_div_cancel_right₀ _ h2] at h
  rw [abs_le]
  constructor <;> linarith [h.1, h.2]

theorem two_sqrt_pi : 2 / Real.sqrt Real.pi ≤ 6/5 := by
  have h : (5/3 : ℝ) ≤ Real.sqrt Real.pi := Real.le_sqrt_of_sq_le (by have := Real.pi_gt_three; norm_num; linarith)
  rw [div_le_iff₀ (by linarith)]
  linarith

theorem zErf_error (x a : ℝ) (hx : |x| ≤ a) : |zErf x - erf x| ≤ 6/5 * (a ^ 73 / ((36).factorial * 73)) := by
  have h := zErfN_error x 35
  refine h.trans ?_
  have e : (2 * ((35:ℕ):ℝ) + 3) = 73 := by norm_num
  rw [e]
  refine mul_le_mul two_sqrt_pi ?_ (by positivity) (by norm_num)
  exact div_le_div_of_nonneg_right (pow_le_pow_left₀ (abs_nonneg x) hx _) (by positivity)

/-- C121, `zErf` on [-3,3]: the error function up to 10^-8; on [-2,2] up to 10^-20. -/
theorem zErf_partial (x : ℝ) : (|x| ≤ 3 → |zErf x - erf x| ≤ 1 / 10^8) ∧ (|x| ≤ 2 → |zErf x - erf x| ≤ 1 / 10^20) :=
  ⟨fun h => (zErf_error x 3 h).trans (by norm_num [Nat.factorial]), fun h => (zErf_error x 2 h).trans (by norm_num [Nat.factorial])⟩

/-- C121, `zCDF` on [-4,4]: the distribution function of the standard normal distribution up to 10^-8. -/
theorem zCDF_partial (x : ℝ) (hx : |x| ≤ 4) : |zCDF x - normalCDF x| ≤ 1 / 10^8 := by
  have h2 : 0 < Real.sqrt 2 := by positivity
  have hs : Real.sqrt 2 * Real.sqrt 2 = 2 := Real.mul_self_sqrt (by norm_num)
  have e : (0.5:ℝ) * x * Real.sqrt 2.0 = x / Real.sqrt 2 := by
    rw [show (2.0:ℝ) = 2 by norm_num, eq_div_iff h2.ne', mul_assoc, hs]
    ring
  have hl : |x / Real.sqrt 2| ≤ 3 := by
    rw [abs_div, abs_of_pos h2, div_le_iff₀ h2]
    nlinarith [Real.sqrt_nonneg 2]
  have h := (zErf_partial (x / Real.sqrt 2)).1 hl
  rw [zCDF, normalCDF_eq, e, show (0.5:ℝ) * (1.0 + zErf (x / Real.sqrt 2)) - 1/2 * (1 + erf (x / Real.sqrt 2)) = 1/2 * (zErf (x / Real.sqrt 2) - erf (x / Real.sqrt 2)) by norm_num; ring, abs_mul]
  rw [abs_of_pos (by norm_num : (0:ℝ) < 1/2)]
  linarith [abs_nonneg (zErf (x / Real.sqrt 2) - erf (x / Real.sqrt 2))]

/-- C121, `zErfN`: with more and more terms the values tend to the error function. -/
theorem zErfN_tendsto (x : ℝ) : Filter.Tendsto (fun n => zErfN x n) Filter.atTop (nhds (erf x)) := by
  rw [tendsto_iff_dist_tendsto_zero]
  have h1 : Filter.Tendsto (fun n : Nat => 6/5 * |x| * (|x|^2) ^ (n+1) / (n+1).factorial) Filter.atTop (nhds 0) := by
    have := ((FloorSemiring.tendsto_pow_div_factorial_atTop (|x|^2)).comp (Filter.tendsto_add_atTop_nat 1)).const_mul (6/5 * |x|)
    rw [mul_zero] at this
    refine this.congr fun n => ?_
    simp only [Function.comp_apply]
    ring
  refine squeeze_zero (fun n => dist_nonneg) (fun n => ?_) h1
  rw [Real.dist_eq]
  refine (zErfN_error x n).trans ?_
  have a : |x| ^ (2*n+3) / ((n+1).factorial * (2*n+3) : ℝ) ≤ |x| * (|x|^2) ^ (n+1) / (n+1).factorial := by
    rw [show |x| * (|x|^2) ^ (n+1) = |x| ^ (2*n+3) by rw [← pow_mul]; ring]
    refine div_le_div_of_nonneg_left (by positivity) (by positivity) ?_
    refine le_mul_of_one_le_right (by positivity) ?_
    have : (0:ℝ) ≤ n := Nat.cast_nonneg n
    linarith
  calc _ ≤ 6/5 * (|x| * (|x|^2) ^ (n+1) / (n+1).factorial) := mul_le_mul two_sqrt_pi a (by positivity) (by norm_num)
    _ = _ := by ring

/-- C121 is false of large arguments: at 10 the value is far out of [-1,1], and so is the distribution function. -/
theorem zErf_violated : zErf 10 < -10^28 ∧ |erf 10| ≤ 1 ∧ 10^27 < |zErf 10 - erf 10| := by
  have hp : (1:ℝ)/2 ≤ 1 / Real.sqrt Real.pi := by
    refine one_div_le_one_div_of_le (Real.sqrt_pos.2 Real.pi_pos) ?_
    rw [Real.sqrt_le_left (by norm_num)]
    linarith [Real.pi_le_four]
  have hs : ∑ i ∈ range 36, (-(10:ℝ) ^ 2) ^ i / i.factorial * 10 / (2*i+1) < -10^28 := by
    simp only [sum_range_succ, sum_range_zero, Nat.factorial]
    norm_num
  have h1 : zErf 10 < -10^28 := by
    rw [zErf, zErfN_spec, div_eq_mul_one_div]
    nlinarith
  refine ⟨h1, erf_abs_le_one 10, ?_⟩
  have := abs_le.1 (erf_abs_le_one 10)
  rw [abs_of_neg (by linarith [this.1])]
  linarith [this.1]

/-- C121 is false as the header states it: the integral from minus infinity, that is `erf x + 1`, is not what is returned, at any argument in [-3,3]. -/
theorem zErf_doc_violated (x : ℝ) (hx : |x| ≤ 3) : ∫ t in Set.Iic x, 2 / Real.sqrt Real.pi * Real.exp (-t^2) = erf x + 1 ∧
    |zErf x - ∫ t in Set.Iic x, 2 / Real.sqrt Real.pi * Real.exp (-t^2)| ≥ 9/10 := by
  have hp : Real.sqrt Real.pi ≠ 0 := (Real.sqrt_pos.2 Real.pi_pos).ne'
  have hi : Integrable fun t : ℝ => Real.exp (-t ^ 2) := by
    have := integrable_exp_neg_mul_sq (b := 1) (by norm_num)
    simpa using this
  have h0 : ∫ t in Set.Iic (0:ℝ), Real.exp (-t ^ 2) = Real.sqrt Real.pi / 2 := by
    have := integral_gaussian_Ioi 1
    rw [div_one] at this
    rw [← this]
    have e := integral_comp_neg_Iic (0:ℝ) (fun t : ℝ => Real.exp (-t ^ 2))
    rw [neg_zero] at e
    simp only [neg_sq] at e
    rw [e]
    simp
  have e1 := intervalIntegral.integral_Iic_sub_Iic (a := 0) (b := x) (hi.integrableOn (s := Set.Iic 0)) (hi.integrableOn (s := Set.Iic x))
  have e : ∫ t in Set.Iic x, 2 / Real.sqrt Real.pi * Real.exp (-t^2) = erf x + 1 := by
    rw [integral_const_mul, eq_add_of_sub_eq e1, h0, erf]
    field_simp
  refine ⟨e, ?_⟩
  rw [e]
  have h := abs_le.1 ((zErf_partial x).1 hx)
  have h2 : zErf x - (erf x + 1) ≤ -9/10 := by
    have := h.2
    norm_num at this
    linarith
  rw [abs_of_nonpos (by linarith)]
  linarith

/-- The hypothesis of the theorems is met by 1, where the value is not zero. -/
example : |zErf 1 - erf 1| ≤ 1 / 10^20 ∧ 1/2 < zErf 1 := by
  refine ⟨(zErf_partial 1).2 (by norm_num), ?_⟩
  have hp : (1:ℝ)/2 ≤ 1 / Real.sqrt Real.pi := by
    refine one_div_le_one_div_of_le (Real.sqrt_pos.2 Real.pi_pos) ?_
    rw [Real.sqrt_le_left (by norm_num)]
    linarith [Real.pi_le_four]
  have hs : (7:ℝ)/10 < ∑ i ∈ range (35+1), (-(1:ℝ) ^ 2) ^ i / i.factorial * 1 / (2*i+1) := by
    simp only [sum_range_succ, sum_range_zero, Nat.factorial]
    norm_num
  rw [zErf, zErfN_spec, show 2 / Real.sqrt Real.pi = 2 * (1 / Real.sqrt Real.pi) by ring]
  generalize ∑ i ∈ range (35+1), (-(1:ℝ) ^ 2) ^ i / i.factorial * 1 / (2*i+1) = u at hs ⊢
  nlinarith

end Zm.SF
