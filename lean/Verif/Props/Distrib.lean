import Verif.Props.SF
import Verif.Props.Gamma
import Verif.Props.Stat
import Verif.Props.Misc
import Verif.Model.Distrib
import Mathlib.Analysis.Complex.ExponentialBounds
import Mathlib.MeasureTheory.Integral.IntegralEqImproper
import Mathlib.Analysis.SpecialFunctions.Gaussian.GaussianIntegral

/-!
# Distributions: normal, Poisson and chi-squared
-/

set_option linter.unusedSectionVars false

namespace Zm.Distrib
open Zm Finset MeasureTheory
open Zm.SF (normalCDF)
open scoped Nat

/-! ## Specification -/

/-- What rounding does: a sum that absorbs a term is at least `1/ε` times as large, and it absorbs every term that is much smaller. -/
def AbsorbOk (absorb : ℝ → ℝ → Bool) (ε : ℝ) : Prop :=
  ∀ p t, (absorb p t = true → |t| ≤ ε * |p|) ∧ (|t| ≤ ε / 4 * |p| → absorb p t = true)

/-- The density of the standard normal distribution. -/
noncomputable def normalPDF (z : ℝ) : ℝ := Real.exp (-z ^ 2 / 2) / Real.sqrt (2 * Real.pi)

/-! ## The series -/

/-- The k-th term of the series. -/
noncomputable def term (z : ℝ) (k : Nat) : ℝ := z ^ (2 * k + 1) / ((2 * k + 1)‼ : ℕ) * normalPDF z

/-- The partial sum up to the k-th term. -/
noncomputable def psum (z : ℝ) (k : Nat) : ℝ := ∑ i ∈ range (k + 1), term z i

theorem s2pi : 0 < Real.sqrt (2 * Real.pi) := Real.sqrt_pos.2 (by positivity)

theorem dfact_pos (k : Nat) : (0 : ℝ) < ((2 * k + 1)‼ : ℕ) := by exact_mod_cast Nat.doubleFactorial_pos _

theorem dfact_succ (k : Nat) : (((2 * (k + 1) + 1)‼ : ℕ) : ℝ) = (2 * k + 3) * ((2 * k + 1)‼ : ℕ) := by
  rw [show 2 * (k + 1) + 1 = (2 * k + 1) + 2 by ring, Nat.doubleFactorial_add_two]
  push_cast; ring

theorem term_succ (z : ℝ) (k : Nat) : term z (k + 1) = term z k * (z ^ 2 / (2 * k + 3)) := by
  unfold term
  rw [dfact_succ]
  have := dfact_pos k
  have h3 : (2 * (k : ℝ) + 3) ≠ 0 := by positivity
  field_simp
  ring

theorem pdf_pos (z : ℝ) : 0 < normalPDF z := div_pos (Real.exp_pos _) s2pi

theorem term_pos {z : ℝ} (hz : 0 < z) (k : Nat) : 0 < term z k := mul_pos (div_pos (pow_pos hz _) (dfact_pos k)) (pdf_pos z)

theorem psum_succ (z : ℝ) (k : Nat) : psum z (k + 1) = psum z k + term z (k + 1) := by unfold psum; rw [sum_range_succ]

theorem psum_pos {z : ℝ} (hz : 0 < z) (k : Nat) : 0 < psum z k := sum_pos (fun i _ => term_pos hz i) ⟨0, by simp⟩

theorem term_le_psum {z : ℝ} (hz : 0 < z) {i k : Nat} (h : i ≤ k) : term z i ≤ psum z k :=
  single_le_sum (f := fun i => term z i) (fun i _ => (term_pos hz i).le) (by rw [mem_range]; omega)

theorem hasDeriv_exp (z : ℝ) : HasDerivAt (fun z : ℝ => Real.exp (-z ^ 2 / 2)) (Real.exp (-z ^ 2 / 2) * (-z)) z := by
  have := (((hasDerivAt_id z).pow 2).neg.div_const 2).exp
  simp only [id, Pi.neg_apply, Pi.pow_apply] at this
  convert this using 1
  push_cast; ring

theorem hasDeriv_sum (m : Nat) (z : ℝ) :
    HasDerivAt (fun z : ℝ => Real.exp (-z ^ 2 / 2) * ∑ k ∈ range (m + 1), z ^ (2 * k + 1) / (((2 * k + 1)‼ : ℕ) : ℝ))
      (Real.exp (-z ^ 2 / 2) - Real.exp (-z ^ 2 / 2) * z ^ (2 * m + 2) / (((2 * m + 1)‼ : ℕ) : ℝ)) z := by
  have hp : ∀ k : Nat, HasDerivAt (fun z : ℝ => z ^ (2 * k + 1) / (((2 * k + 1)‼ : ℕ) : ℝ)) (((2 * k + 1 : ℕ) : ℝ) * z ^ (2 * k) / (((2 * k + 1)‼ : ℕ) : ℝ)) z := by
    intro k
    have := (hasDerivAt_pow (2 * k + 1) z).div_const (((2 * k + 1)‼ : ℕ) : ℝ)
    simpa using this
  have hs := HasDerivAt.fun_sum (u := range (m + 1)) (fun k _ => hp k)
  have := (hasDeriv_exp z).mul hs
  refine this.congr_deriv ?_
  have key : ∀ m : Nat, ∑ k ∈ range (m + 1), ((2 * k + 1 : ℕ) : ℝ) * z ^ (2 * k) / (((2 * k + 1)‼ : ℕ) : ℝ) =
      1 + z * ∑ k ∈ range (m + 1), z ^ (2 * k + 1) / (((2 * k + 1)‼ : ℕ) : ℝ) - z ^ (2 * m + 2) / (((2 * m + 1)‼ : ℕ) : ℝ) := by
    intro m
    induction m with
    | zero => simp; ring
    | succ m ih =>
      rw [sum_range_succ, ih, sum_range_succ (n := m + 1), dfact_succ]
      have := dfact_pos m
      have h3 : (2 * (m : ℝ) + 3) ≠ 0 := by positivity
      push_cast
      field_simp
      ring
  rw [key m]
  ring

theorem cdf_sub (z : ℝ) : normalCDF z - 1 / 2 = (∫ u in (0:ℝ)..z, Real.exp (-u ^ 2 / 2)) / Real.sqrt (2 * Real.pi) := by
  have e1 := intervalIntegral.integral_Iic_sub_Iic (a := 0) (b := z) (SF.gauss_integrable.integrableOn (s := Set.Iic 0)) (SF.gauss_integrable.integrableOn (s := Set.Iic z))
  rw [SF.normalCDF, eq_add_of_sub_eq e1, SF.gauss_half]
  have := s2pi.ne'
  field_simp
  ring

/-- The remainder of the series as an integral. -/
theorem remainder (z : ℝ) (m : Nat) :
    normalCDF z - 1 / 2 - psum z m = (∫ u in (0:ℝ)..z, Real.exp (-u ^ 2 / 2) * u ^ (2 * m + 2) / (((2 * m + 1)‼ : ℕ) : ℝ)) / Real.sqrt (2 * Real.pi) := by
  have hc1 : Continuous fun u : ℝ => Real.exp (-u ^ 2 / 2) := by fun_prop
  have hc2 : Continuous fun u : ℝ => Real.exp (-u ^ 2 / 2) * u ^ (2 * m + 2) / (((2 * m + 1)‼ : ℕ) : ℝ) := by fun_prop
  have ft := intervalIntegral.integral_eq_sub_of_hasDerivAt (a := 0) (b := z) (fun u _ => hasDeriv_sum m u) ((hc1.sub hc2).intervalIntegrable _ _)
  rw [intervalIntegral.integral_sub (hc1.intervalIntegrable _ _) (hc2.intervalIntegrable _ _)] at ft
  have h0 : ∑ k ∈ range (m + 1), (0:ℝ) ^ (2 * k + 1) / (((2 * k + 1)‼ : ℕ) : ℝ) = 0 := sum_eq_zero fun k _ => by simp
  rw [h0, mul_zero, sub_zero] at ft
  rw [cdf_sub]
  have hps : psum z m = Real.exp (-z ^ 2 / 2) * (∑ k ∈ range (m + 1), z ^ (2 * k + 1) / (((2 * k + 1)‼ : ℕ) : ℝ)) / Real.sqrt (2 * Real.pi) := by
    unfold psum term normalPDF
    rw [← sum_mul]; ring
  rw [hps, ← ft]
  ring

theorem remainder_nonneg {z : ℝ} (hz : 0 ≤ z) (m : Nat) : 0 ≤ normalCDF z - 1 / 2 - psum z m := by
  rw [remainder]
  refine div_nonneg (intervalIntegral.integral_nonneg hz fun u hu => ?_) s2pi.le
  exact div_nonneg (mul_nonneg (Real.exp_pos _).le (pow_nonneg hu.1 _)) (dfact_pos m).le

theorem integrand_le {z u : ℝ} (hu : 0 ≤ u) (huz : u ≤ z) (hz : 0 < z) (m : Nat) (h : z ^ 2 ≤ 2 * m + 2) :
    Real.exp (-u ^ 2 / 2) * u ^ (2 * m + 2) ≤ Real.exp (-z ^ 2 / 2) * z ^ (2 * m + 2) := by
  have hz2 : 0 < z ^ 2 := by positivity
  set s := u ^ 2 / z ^ 2 with hs
  have s0 : 0 ≤ s := by positivity
  have s1 : s ≤ 1 := by rw [hs, div_le_one hz2]; exact pow_le_pow_left₀ hu huz 2
  have e1 : s ≤ Real.exp (s - 1) := by have := Real.add_one_le_exp (s - 1); linarith
  have e2 : s ^ (m + 1) ≤ Real.exp ((m + 1) * (s - 1)) := by
    refine (pow_le_pow_left₀ s0 e1 (m + 1)).trans_eq ?_
    rw [← Real.exp_nat_mul]; push_cast; rfl
  have e3 : Real.exp ((m + 1) * (s - 1)) ≤ Real.exp (z ^ 2 / 2 * (s - 1)) := by
    rw [Real.exp_le_exp]
    nlinarith
  have e4 : u ^ (2 * m + 2) = z ^ (2 * m + 2) * s ^ (m + 1) := by
    rw [hs, div_pow, ← pow_mul, ← pow_mul, show 2 * (m + 1) = 2 * m + 2 by ring]
    field_simp
  have e5 : Real.exp (-z ^ 2 / 2) = Real.exp (-u ^ 2 / 2) * Real.exp (z ^ 2 / 2 * (s - 1)) := by
    rw [← Real.exp_add]
    congr 1
    rw [hs]; field_simp; ring
  rw [e4, e5]
  have := e2.trans e3
  have hp : 0 ≤ Real.exp (-u ^ 2 / 2) * z ^ (2 * m + 2) := by positivity
  calc _ = Real.exp (-u ^ 2 / 2) * z ^ (2 * m + 2) * s ^ (m + 1) := by ring
    _ ≤ Real.exp (-u ^ 2 / 2) * z ^ (2 * m + 2) * Real.exp (z ^ 2 / 2 * (s - 1)) := mul_le_mul_of_nonneg_left this hp
    _ = _ := by ring

theorem remainder_le {z : ℝ} (hz : 0 < z) (m : Nat) (h : z ^ 2 ≤ 2 * m + 2) : normalCDF z - 1 / 2 - psum z m ≤ z ^ 2 * term z m := by
  have hc2 : Continuous fun u : ℝ => Real.exp (-u ^ 2 / 2) * u ^ (2 * m + 2) / (((2 * m + 1)‼ : ℕ) : ℝ) := by fun_prop
  have hi : ∫ u in (0:ℝ)..z, Real.exp (-u ^ 2 / 2) * u ^ (2 * m + 2) / (((2 * m + 1)‼ : ℕ) : ℝ) ≤
      ∫ _ in (0:ℝ)..z, Real.exp (-z ^ 2 / 2) * z ^ (2 * m + 2) / (((2 * m + 1)‼ : ℕ) : ℝ) := by
    refine intervalIntegral.integral_mono_on hz.le (hc2.intervalIntegrable _ _) (continuous_const.intervalIntegrable _ _) fun u hu => ?_
    exact div_le_div_of_nonneg_right (integrand_le hu.1 hu.2 hz m h) (dfact_pos m).le
  rw [intervalIntegral.integral_const, sub_zero, smul_eq_mul] at hi
  rw [remainder]
  refine (div_le_div_of_nonneg_right hi s2pi.le).trans_eq ?_
  unfold term normalPDF
  rw [pow_succ z (2 * m + 1)]
  ring

/-! ## The tail -/

theorem tail_le {z : ℝ} (hz : 1 ≤ z) : 1 - normalCDF z ≤ Real.exp (-z ^ 2 / 2) / Real.sqrt (2 * Real.pi) := by
  have hd : ∀ u ∈ Set.Ioi z, HasDerivAt (fun u : ℝ => -Real.exp (-u ^ 2 / 2)) (u * Real.exp (-u ^ 2 / 2)) u := by
    intro u _
    exact (hasDeriv_exp u).neg.congr_deriv (by ring)
  have hl : Filter.Tendsto (fun u : ℝ => -Real.exp (-u ^ 2 / 2)) Filter.atTop (nhds 0) := by
    rw [← neg_zero]
    refine Filter.Tendsto.neg (Real.tendsto_exp_atBot.comp ?_)
    have : Filter.Tendsto (fun u : ℝ => u ^ 2 / 2) Filter.atTop Filter.atTop := (Filter.tendsto_pow_atTop (by norm_num)).atTop_div_const (by norm_num)
    have h2 := Filter.tendsto_neg_atTop_atBot.comp this
    refine h2.congr fun u => ?_
    simp only [Function.comp]; ring
  have hi : IntegrableOn (fun u : ℝ => u * Real.exp (-u ^ 2 / 2)) (Set.Ioi z) :=
    integrableOn_Ioi_deriv_of_nonneg ((by fun_prop : Continuous fun u : ℝ => -Real.exp (-u ^ 2 / 2)).continuousWithinAt) hd
      (fun u hu => mul_nonneg (by have : z < u := hu; linarith) (Real.exp_pos _).le) hl
  have hv := integral_Ioi_of_hasDerivAt_of_tendsto ((by fun_prop : Continuous fun u : ℝ => -Real.exp (-u ^ 2 / 2)).continuousWithinAt) hd hi hl
  have hle : ∫ u in Set.Ioi z, Real.exp (-u ^ 2 / 2) ≤ ∫ u in Set.Ioi z, u * Real.exp (-u ^ 2 / 2) := by
    refine setIntegral_mono_on SF.gauss_integrable.integrableOn hi measurableSet_Ioi fun u hu => ?_
    have : z < u := hu
    have := Real.exp_pos (-u ^ 2 / 2)
    nlinarith
  have hsum := intervalIntegral.integral_Iic_add_Ioi (b := z) (SF.gauss_integrable.integrableOn (s := Set.Iic z)) (SF.gauss_integrable.integrableOn (s := Set.Ioi z))
  rw [SF.gauss_integral] at hsum
  rw [hv, zero_sub, neg_neg] at hle
  rw [SF.normalCDF, eq_sub_of_add_eq hsum, le_div_iff₀ s2pi, sub_mul, div_mul_cancel₀ _ s2pi.ne']
  linarith

/-! ## The loop -/

theorem cumLoop_spec (absorb : ℝ → ℝ → Bool) (z : ℝ) : ∀ (n k : Nat),
    (∀ p, cumLoop absorb (z ^ 2) n (2 * k + 3) (psum z k) (term z k) = some p → ∃ m, k ≤ m ∧ m < k + n ∧ p = psum z m ∧ absorb (psum z m) (term z (m + 1)) = true) ∧
    (cumLoop absorb (z ^ 2) n (2 * k + 3) (psum z k) (term z k) = none → ∀ m, k ≤ m → m < k + n → absorb (psum z m) (term z (m + 1)) = false) := by
  intro n
  induction n with
  | zero =>
    intro k
    exact ⟨fun p h => by simp [cumLoop] at h, fun _ m h1 h2 => by omega⟩
  | succ n ih =>
    intro k
    have e : term z k * (z ^ 2 / ((2 * k + 3 : ℕ) : ℝ)) = term z (k + 1) := by rw [term_succ]; push_cast; rfl
    unfold cumLoop
    rw [e, ← psum_succ, show 2 * k + 3 + 2 = 2 * (k + 1) + 3 by ring]
    by_cases h : absorb (psum z k) (term z (k + 1)) = true
    · rw [if_pos h]
      refine ⟨fun p hp => ⟨k, le_refl _, by omega, ?_, h⟩, fun hn => by simp at hn⟩
      rw [Option.some.injEq] at hp; exact hp.symm
    · rw [if_neg h]
      obtain ⟨i1, i2⟩ := ih (k + 1)
      refine ⟨fun p hp => ?_, fun hn m h1 h2 => ?_⟩
      · obtain ⟨m, a, b, c⟩ := i1 p hp
        exact ⟨m, by omega, by omega, c⟩
      · by_cases x : m = k
        · rw [x]; simpa using h
        · exact i2 hn m (by omega) (by omega)

theorem cumLoop_neg (absorb : ℝ → ℝ → Bool) (x2 : ℝ) : ∀ (n i : Nat) (p t : ℝ),
    cumLoop absorb x2 n i (-p) (-t) = (cumLoop (fun p t => absorb (-p) (-t)) x2 n i p t).map Neg.neg := by
  intro n
  induction n with
  | zero => intro i p t; rfl
  | succ n ih =>
    intro i p t
    unfold cumLoop
    rw [neg_mul]
    by_cases h : absorb (-p) (-(t * (x2 / i))) = true
    · rw [if_pos h, if_pos h]; rfl
    · rw [if_neg h, if_neg h, ← neg_add]
      exact ih _ _ _

theorem absorb_neg {absorb : ℝ → ℝ → Bool} {ε : ℝ} (h : AbsorbOk absorb ε) : AbsorbOk (fun p t => absorb (-p) (-t)) ε := by
  intro p t
  have := h (-p) (-t)
  rwa [abs_neg, abs_neg] at this

theorem exp_big : Real.exp (-(71:ℝ) / 2) ≤ 1 / 10 ^ 15 := by
  have h1 : (2.7182818283 : ℝ) < Real.exp 1 := Real.exp_one_gt_d9
  have h2 : Real.exp (71 / 2) = Real.exp 1 ^ 35 * Real.exp (1 / 2) := by
    rw [← Real.exp_nat_mul, ← Real.exp_add]; norm_num
  have h3 : (10:ℝ) ^ 15 ≤ Real.exp (71 / 2) := by
    rw [h2]
    have a : (2.7182818283 : ℝ) ^ 35 ≤ Real.exp 1 ^ 35 := pow_le_pow_left₀ (by norm_num) h1.le 35
    have b : (1:ℝ) ≤ Real.exp (1 / 2) := Real.one_le_exp (by norm_num)
    have c : (10:ℝ) ^ 15 ≤ (2.7182818283 : ℝ) ^ 35 := by norm_num
    nlinarith [Real.exp_pos 1]
  rw [show -(71:ℝ) / 2 = -(71 / 2) by ring, Real.exp_neg, ← one_div]
  exact one_div_le_one_div_of_le (by positivity) h3

theorem one_le_s2pi : 1 ≤ Real.sqrt (2 * Real.pi) := by
  rw [Real.one_le_sqrt]
  have := Real.pi_gt_three
  linarith

/-- The loop for a positive argument. -/
theorem cum_pos (absorb : ℝ → ℝ → Bool) (ha : AbsorbOk absorb (1 / 2 ^ 53)) {z : ℝ} (hz : 0 < z) :
    |cumResult 1 (cumLoop absorb (z ^ 2) 99 3 (psum z 0) (term z 0)) - normalCDF z| ≤ 1.2 / 10 ^ 14 := by
  obtain ⟨h1, h2⟩ := cumLoop_spec absorb z 99 0
  simp only [mul_zero, zero_add] at h1 h2
  rcases hr : cumLoop absorb (z ^ 2) 99 3 (psum z 0) (term z 0) with _ | p
  · have hn := h2 hr 98 (by omega) (by omega)
    have hbig : 71 < z ^ 2 := by
      by_contra hcon
      rw [not_lt] at hcon
      have hall : ∀ j : Nat, term z (32 + j) = term z 32 * ∏ i ∈ range j, (z ^ 2 / (2 * (32 + i : ℕ) + 3)) := by
        intro j
        induction j with
        | zero => simp
        | succ j ih => rw [← add_assoc, term_succ, ih, prod_range_succ]; ring
      have h67 : term z 99 ≤ term z 32 * (1 / 2 ^ 53 / 4) := by
        rw [show 99 = 32 + 67 from rfl, hall 67]
        refine mul_le_mul_of_nonneg_left ?_ (term_pos hz 32).le
        calc ∏ i ∈ range 67, (z ^ 2 / (2 * (32 + i : ℕ) + 3)) ≤ ∏ i ∈ range 67, ((71:ℝ) / (2 * (32 + i : ℕ) + 3)) := by
              refine prod_le_prod (fun i _ => by positivity) fun i _ => ?_
              exact div_le_div_of_nonneg_right hcon (by positivity)
          _ ≤ 1 / 2 ^ 53 / 4 := by
              rw [prod_div_distrib, prod_const, card_range]
              have e : ∏ i ∈ range 67, (2 * ((32 + i : ℕ) : ℝ) + 3) = ((∏ i ∈ range 67, (2 * (32 + i) + 3) : ℕ) : ℝ) := by push_cast; rfl
              rw [e]
              have d : ∏ i ∈ range 67, (2 * (32 + i) + 3) ≥ 71 ^ 67 * 4 * 2 ^ 53 := by decide +kernel
              have d' : (71 : ℝ) ^ 67 * 4 * 2 ^ 53 ≤ ((∏ i ∈ range 67, (2 * (32 + i) + 3) : ℕ) : ℝ) := by exact_mod_cast d
              rw [div_le_iff₀ (lt_of_lt_of_le (by positivity) d')]
              calc (71:ℝ) ^ 67 = 1 / 2 ^ 53 / 4 * ((71 : ℝ) ^ 67 * 4 * 2 ^ 53) := by ring
                _ ≤ _ := mul_le_mul_of_nonneg_left d' (by positivity)
      have hab := (ha (psum z 98) (term z 99)).2 (by
        rw [abs_of_pos (term_pos hz _), abs_of_pos (psum_pos hz _)]
        refine h67.trans ?_
        rw [mul_comm]
        exact mul_le_mul_of_nonneg_left (term_le_psum hz (by omega)) (by positivity))
      rw [hab] at hn
      exact absurd hn (by simp)
    have hz1 : 1 ≤ z := by nlinarith
    have ht := tail_le hz1
    have hexp : Real.exp (-z ^ 2 / 2) ≤ 1 / 10 ^ 15 := (Real.exp_le_exp.2 (by linarith)).trans exp_big
    have hd : Real.exp (-z ^ 2 / 2) / Real.sqrt (2 * Real.pi) ≤ Real.exp (-z ^ 2 / 2) := div_le_self (Real.exp_pos _).le one_le_s2pi
    have hm := SF.normalCDF_mem z
    simp only [cumResult]
    rw [if_pos one_pos, abs_of_nonneg (by linarith [hm.2])]
    refine (ht.trans (hd.trans hexp)).trans (by norm_num)
  · obtain ⟨m, -, hm, rfl, hab⟩ := h1 p hr
    have hab := (ha _ _).1 hab
    rw [abs_of_pos (term_pos hz _), abs_of_pos (psum_pos hz _)] at hab
    have hps := psum_pos hz m
    have hlt : z ^ 2 < 2 * m + 3 := by
      by_contra hcon
      rw [not_lt] at hcon
      have mono : ∀ j, j ≤ m → term z j ≤ term z (j + 1) := by
        intro j hj
        rw [term_succ]
        refine le_mul_of_one_le_right (term_pos hz j).le ?_
        have : (j : ℝ) ≤ m := by exact_mod_cast hj
        rw [one_le_div (by positivity)]
        linarith
      have mono' : ∀ d j, j + d = m + 1 → term z j ≤ term z (m + 1) := by
        intro d
        induction d with
        | zero => intro j hj; rw [← hj]; exact le_refl _
        | succ d ih => intro j hj; exact (mono j (by omega)).trans (ih (j + 1) (by omega))
      have hle : psum z m ≤ (m + 1) * term z (m + 1) := by
        unfold psum
        refine (sum_le_card_nsmul (range (m + 1)) _ (term z (m + 1)) fun j hj => ?_).trans_eq ?_
        · rw [mem_range] at hj
          exact mono' (m + 1 - j) j (by omega)
        · rw [card_range, nsmul_eq_mul]; push_cast; rfl
      have h99 : ((m : ℝ) + 1) ≤ 99 := by
        have : m + 1 ≤ 99 := by omega
        exact_mod_cast this
      have ht := term_pos hz (m + 1)
      have : psum z m ≤ 99 * (1 / 2 ^ 53 * psum z m) := by
        calc psum z m ≤ (m + 1) * term z (m + 1) := hle
          _ ≤ 99 * term z (m + 1) := mul_le_mul_of_nonneg_right h99 ht.le
          _ ≤ _ := mul_le_mul_of_nonneg_left hab (by norm_num)
      nlinarith
    have r0 := remainder_nonneg hz.le m
    have r1 := remainder_le hz (m + 1) (by push_cast; linarith)
    rw [psum_succ] at r1
    have hcdf := (SF.normalCDF_mem z).2
    simp only [cumResult]
    have ht := term_pos hz (m + 1)
    have hm' : (m : ℝ) ≤ 98 := by
      have : m ≤ 98 := by omega
      exact_mod_cast this
    have hfin : normalCDF z - 1 / 2 - psum z m ≤ 200 * (1 / 2 ^ 53 * (1 / 2)) := by
      calc normalCDF z - 1 / 2 - psum z m ≤ (1 + z ^ 2) * term z (m + 1) := by linarith
        _ ≤ 200 * term z (m + 1) := mul_le_mul_of_nonneg_right (by linarith) ht.le
        _ ≤ 200 * (1 / 2 ^ 53 * psum z m) := mul_le_mul_of_nonneg_left hab (by norm_num)
        _ ≤ _ := by
          refine mul_le_mul_of_nonneg_left (mul_le_mul_of_nonneg_left ?_ (by positivity)) (by norm_num)
          linarith
    rw [abs_sub_comm, abs_of_nonneg (by norm_num; linarith)]
    have : (200:ℝ) * (1 / 2 ^ 53 * (1 / 2)) ≤ 1.2 / 10 ^ 14 := by norm_num
    norm_num at this hfin ⊢
    linarith

theorem normalCDF_neg (z : ℝ) : normalCDF (-z) = 1 - normalCDF z := by
  have h1 := cdf_sub z
  have h2 := cdf_sub (-z)
  have e : ∫ u in (0:ℝ)..-z, Real.exp (-u ^ 2 / 2) = -∫ u in (0:ℝ)..z, Real.exp (-u ^ 2 / 2) := by
    have := intervalIntegral.integral_comp_neg (a := 0) (b := z) (fun u : ℝ => Real.exp (-u ^ 2 / 2))
    simp only [neg_sq, neg_zero] at this
    rw [intervalIntegral.integral_symm, ← this]
  rw [e, neg_div] at h2
  linarith

/-- C180, `zNormalCumDistrib`: the distribution function of the normal distribution within 1.2e-14, for every argument. -/
theorem zNormalCumDistrib_correct (absorb : ℝ → ℝ → Bool) (ha : AbsorbOk absorb (1 / 2 ^ 53)) (x mu sigma : ℝ) (hs : 0 < sigma) :
    ∃ p, zNormalCumDistrib absorb x mu sigma = .ok p ∧ |p - normalCDF ((x - mu) / sigma)| ≤ 1.2 / 10 ^ 14 := by
  unfold zNormalCumDistrib
  rw [if_neg hs.ne']
  refine ⟨_, rfl, ?_⟩
  set z := (x - mu) / sigma with hz
  have et : (x - mu) * Real.exp (-0.5 * z ^ 2) / (Real.sqrt (2 * Real.pi) * sigma) = term z 0 := by
    unfold term normalPDF
    rw [show (-0.5 : ℝ) * z ^ 2 = -z ^ 2 / 2 by ring]
    simp only [mul_zero, zero_add, pow_one, Nat.doubleFactorial, Nat.cast_one, div_one, mul_one]
    have := s2pi.ne'
    rw [hz]; field_simp
  have ep : psum z 0 = term z 0 := by unfold psum; simp
  rw [et]
  rcases lt_trichotomy z 0 with h | h | h
  · have hx : ¬ x - mu > 0 := by
      intro hx
      have : 0 < z := div_pos hx hs
      linarith
    have e1 : term z 0 = -term (-z) 0 := by unfold term normalPDF; simp [neg_sq]
    have e2 : psum (-z) 0 = term (-z) 0 := by unfold psum; simp
    rw [e1, cumLoop_neg]
    have hp := cum_pos _ (absorb_neg ha) (z := -z) (by linarith)
    rw [neg_sq, e2, normalCDF_neg] at hp
    rcases hr : cumLoop (fun p t => absorb (-p) (-t)) (z ^ 2) 99 3 (term (-z) 0) (term (-z) 0) with _ | p
    · rw [hr] at hp
      simp only [cumResult, Option.map_none, if_neg hx] at hp ⊢
      rw [if_pos one_pos] at hp
      rw [abs_sub_comm]
      convert hp using 2; ring
    · rw [hr] at hp
      simp only [cumResult, Option.map_some] at hp ⊢
      rw [abs_sub_comm]
      convert hp using 2; norm_num; ring
  · have e0 : term z 0 = 0 := by rw [h]; unfold term; simp
    rw [e0]
    have hab : absorb 0 0 = true := (ha 0 0).2 (by simp)
    have : cumLoop absorb (z ^ 2) 99 3 0 0 = some 0 := by
      unfold cumLoop
      rw [zero_mul, if_pos hab]
    rw [this, h]
    have hc := cdf_sub 0
    rw [intervalIntegral.integral_same, zero_div] at hc
    simp only [cumResult]
    rw [show normalCDF 0 = 1 / 2 by linarith]
    norm_num
  · have hx : 0 < x - mu := by
      have : z * sigma = x - mu := by rw [hz]; field_simp
      rw [← this]; exact mul_pos h hs
    have hp := cum_pos absorb ha h
    rw [ep] at hp
    have e : cumResult (x - mu) (cumLoop absorb (z ^ 2) 99 3 (term z 0) (term z 0)) = cumResult 1 (cumLoop absorb (z ^ 2) 99 3 (term z 0) (term z 0)) := by
      rcases cumLoop absorb (z ^ 2) 99 3 (term z 0) (term z 0) with _ | p
      · simp only [cumResult]; rw [if_pos hx, if_pos one_pos]
      · rfl
    rw [e]; exact hp

/-- C180, `zNormalDistrib`: the density of the normal distribution, up to a relative error of 1e-15. -/
theorem zNormalDistrib_correct (x mu sigma : ℝ) (hs : 0 < sigma) :
    ∃ p, zNormalDistrib x mu sigma = .ok p ∧ |p - normalPDF ((x - mu) / sigma) / sigma| ≤ 1 / 10 ^ 15 * (normalPDF ((x - mu) / sigma) / sigma) := by
  unfold zNormalDistrib
  rw [if_neg hs.ne']
  refine ⟨_, rfl, ?_⟩
  set z := (x - mu) / sigma
  have hsq : Real.sqrt (2 * Real.pi) ^ 2 = 2 * Real.pi := Real.sq_sqrt (by positivity)
  have p1 := Real.pi_gt_d20
  have p2 := Real.pi_lt_d20
  have hS := s2pi
  have hb : |zND * Real.sqrt (2 * Real.pi) - 1| ≤ 1 / 10 ^ 15 := by
    rw [abs_le]
    unfold zND
    constructor
    · by_contra hcon
      push Not at hcon
      nlinarith
    · by_contra hcon
      push Not at hcon
      nlinarith
  have e : zND / sigma * Real.exp (-0.5 * z ^ 2) - normalPDF z / sigma = (zND * Real.sqrt (2 * Real.pi) - 1) * (normalPDF z / sigma) := by
    unfold normalPDF
    rw [show (-0.5 : ℝ) * z ^ 2 = -z ^ 2 / 2 by ring]
    field_simp
  rw [e, abs_mul, abs_of_pos (div_pos (pdf_pos z) hs)]
  exact mul_le_mul_of_nonneg_right hb (div_pos (pdf_pos z) hs).le

/-! ## Poisson distribution -/

/-- C181, `zPoissonDistrib` of a number that is not negative. -/
theorem zPoissonDistrib_partial (n : Nat) (lam : ℝ) : zPoissonDistrib n lam = .ok (Real.exp (-lam) * lam ^ n / n.factorial) := by
  unfold zPoissonDistrib
  rw [Misc.zFactorial_eq, if_neg (by exact_mod_cast n.factorial_ne_zero), zpow_natCast]

/-- C181: the probabilities have the sum one and the mean `lam`. -/
theorem poisson_sums (lam : ℝ) : HasSum (fun n : Nat => Real.exp (-lam) * lam ^ n / n.factorial) 1 ∧
    HasSum (fun n : Nat => n * (Real.exp (-lam) * lam ^ n / n.factorial)) lam := by
  have h1 : HasSum (fun n : Nat => Real.exp (-lam) * lam ^ n / n.factorial) 1 := by
    have h := (NormedSpace.expSeries_div_hasSum_exp (𝔸 := ℝ) lam).mul_left (Real.exp (-lam))
    rw [← Real.exp_eq_exp_ℝ, ← Real.exp_add, neg_add_cancel, Real.exp_zero] at h
    refine h.congr_fun ?_
    intro n; ring
  refine ⟨h1, ?_⟩
  rw [← hasSum_nat_add_iff' 1]
  simp only [range_one, sum_singleton, Nat.cast_zero, zero_mul, sub_zero]
  have h2 := h1.mul_left lam
  rw [mul_one] at h2
  refine h2.congr_fun ?_
  intro n
  rw [Nat.factorial_succ, pow_succ]
  have a1 : ((n:ℝ) + 1) ≠ 0 := by positivity
  have a2 : (n.factorial : ℝ) ≠ 0 := by exact_mod_cast n.factorial_ne_zero
  push_cast
  field_simp

/-- C181 is violated: a negative number has no finite probability, whereas it should be zero. -/
theorem zPoissonDistrib_violated (x : Int) (hx : x < 0) (lam : ℝ) : zPoissonDistrib x lam = .fail := by
  unfold zPoissonDistrib Misc.zFactorial Misc.zPermutation
  rw [if_pos (by rw [if_pos (by omega)])]

/-! ## Chi-squared distribution -/

/-- The density of the chi-squared distribution with `k` degrees of freedom. -/
noncomputable def chi2PDF (k : Nat) (u : ℝ) : ℝ :=
  u ^ ((k : ℝ) / 2 - 1) * Real.exp (-u / 2) / (2 ^ ((k : ℝ) / 2) * Real.Gamma ((k : ℝ) / 2))

theorem chi2PDF_nonneg (k : Nat) (hk : 0 < k) {u : ℝ} (hu : 0 ≤ u) : 0 ≤ chi2PDF k u := by
  have hk' : (0 : ℝ) < (k : ℝ) / 2 := by positivity
  have := Real.Gamma_pos_of_pos hk'
  unfold chi2PDF
  positivity

/-- A primitive of the density on the interval. -/
theorem chi2_of (k : Nat) (hk : 0 < k) (F : ℝ → ℝ) (x : ℝ) (hx : 0 ≤ x) (hc : ContinuousOn F (Set.Icc 0 x))
    (hd : ∀ u ∈ Set.Ioo 0 x, HasDerivAt F (chi2PDF k u) u) (h0 : F 0 = 0) : F x = ∫ u in (0:ℝ)..x, chi2PDF k u := by
  have hi : IntervalIntegrable (chi2PDF k) volume 0 x := by
    refine intervalIntegral.intervalIntegrable_deriv_of_nonneg (g := F) ?_ ?_ ?_
    · rw [Set.uIcc_of_le hx]; exact hc
    · rw [min_eq_left hx, max_eq_right hx]; exact hd
    · rw [min_eq_left hx, max_eq_right hx]
      intro u hu
      exact chi2PDF_nonneg k hk hu.1.le
  rw [intervalIntegral.integral_eq_sub_of_hasDerivAt_of_le hx hc hd hi, h0, sub_zero]

theorem chi2PDF_odd (n : Nat) {u : ℝ} (hu : 0 < u) :
    chi2PDF (2 * n + 1) u = u ^ n * Real.exp (-u / 2) / (Real.sqrt u * ((2 * n - 1)‼ : ℕ) * Real.sqrt (2 * Real.pi)) := by
  unfold chi2PDF
  have e1 : (((2 * n + 1 : ℕ) : ℝ)) / 2 = (n : ℝ) + 1 / 2 := by push_cast; ring
  rw [e1, Real.Gamma_nat_add_half]
  have e2 : u ^ ((n : ℝ) + 1 / 2 - 1) = u ^ n / Real.sqrt u := by
    rw [show (n : ℝ) + 1 / 2 - 1 = (n : ℝ) - 1 / 2 by ring, Real.rpow_sub hu, Real.rpow_natCast, Real.sqrt_eq_rpow]
  have e3 : (2 : ℝ) ^ ((n : ℝ) + 1 / 2) = 2 ^ n * Real.sqrt 2 := by
    rw [Real.rpow_add (by norm_num), Real.rpow_natCast, Real.sqrt_eq_rpow]
  rw [e2, e3, Real.sqrt_mul (by norm_num) Real.pi]
  have h1 : Real.sqrt u ≠ 0 := (Real.sqrt_pos.2 hu).ne'
  have h2 : Real.sqrt 2 ≠ 0 := by positivity
  have h3 : Real.sqrt Real.pi ≠ 0 := (Real.sqrt_pos.2 Real.pi_pos).ne'
  have h4 : (((2 * n - 1)‼ : ℕ) : ℝ) ≠ 0 := by exact_mod_cast (Nat.doubleFactorial_pos _).ne'
  field_simp

theorem chi2PDF_even (m : Nat) {u : ℝ} : chi2PDF (2 * (m + 1)) u = Stat.chi2Density u (m + 1) := by
  unfold chi2PDF Stat.chi2Density
  have e1 : (((2 * (m + 1) : ℕ) : ℝ)) / 2 = ((m + 1 : ℕ) : ℝ) := by push_cast; ring
  rw [e1, Real.rpow_natCast, show ((m + 1 : ℕ) : ℝ) - 1 = (m : ℝ) by push_cast; ring, Real.rpow_natCast, Nat.add_sub_cancel,
    show ((m + 1 : ℕ) : ℝ) = (m : ℝ) + 1 by push_cast; ring, Real.Gamma_nat_eq_factorial, show -(1 / 2) * u = -u / 2 by ring]
  have : (m.factorial : ℝ) ≠ 0 := by exact_mod_cast m.factorial_ne_zero
  rw [div_pow]
  field_simp
  ring

/-- The distribution function for an odd number of degrees of freedom as an integral over the square root. -/
theorem chi2_odd (n : Nat) (x : ℝ) (hx : 0 ≤ x) :
    2 * ((∫ v in (0:ℝ)..Real.sqrt x, Real.exp (-v ^ 2 / 2) * v ^ (2 * n) / (((2 * n - 1)‼ : ℕ) : ℝ)) / Real.sqrt (2 * Real.pi)) =
      ∫ u in (0:ℝ)..x, chi2PDF (2 * n + 1) u := by
  have hcf : Continuous fun v : ℝ => Real.exp (-v ^ 2 / 2) * v ^ (2 * n) / (((2 * n - 1)‼ : ℕ) : ℝ) := by fun_prop
  have hG : ∀ y : ℝ, HasDerivAt (fun y => ∫ v in (0:ℝ)..y, Real.exp (-v ^ 2 / 2) * v ^ (2 * n) / (((2 * n - 1)‼ : ℕ) : ℝ))
      (Real.exp (-y ^ 2 / 2) * y ^ (2 * n) / (((2 * n - 1)‼ : ℕ) : ℝ)) y := fun y => hcf.integral_hasStrictDerivAt 0 y |>.hasDerivAt
  refine chi2_of (2 * n + 1) (by omega)
    (fun x => 2 * ((∫ v in (0:ℝ)..Real.sqrt x, Real.exp (-v ^ 2 / 2) * v ^ (2 * n) / (((2 * n - 1)‼ : ℕ) : ℝ)) / Real.sqrt (2 * Real.pi))) x hx ?_ ?_ ?_
  · have hcG : Continuous fun y : ℝ => ∫ v in (0:ℝ)..y, Real.exp (-v ^ 2 / 2) * v ^ (2 * n) / (((2 * n - 1)‼ : ℕ) : ℝ) :=
      continuous_iff_continuousAt.2 fun y => (hG y).continuousAt
    exact (continuous_const.mul ((hcG.comp Real.continuous_sqrt).div_const _)).continuousOn
  · intro u hu
    have hs := (Real.hasDerivAt_sqrt hu.1.ne')
    have := ((HasDerivAt.comp u (hG (Real.sqrt u)) hs).div_const (Real.sqrt (2 * Real.pi))).const_mul 2
    refine this.congr_deriv ?_
    rw [chi2PDF_odd n hu.1, pow_mul, Real.sq_sqrt hu.1.le]
    have h1 : Real.sqrt u ≠ 0 := (Real.sqrt_pos.2 hu.1).ne'
    have h4 : (((2 * n - 1)‼ : ℕ) : ℝ) ≠ 0 := by exact_mod_cast (Nat.doubleFactorial_pos _).ne'
    have := s2pi.ne'
    field_simp
  · simp

theorem chi2SumOdd_eq (x : ℝ) (hx : 0 ≤ x) (n : Nat) : chi2SumOdd x (n + 1) = psum (Real.sqrt x) n := by
  unfold chi2SumOdd
  simp only
  have e0 : Real.sqrt x * Real.exp (-0.5 * x) / Real.sqrt (2 * Real.pi) = term (Real.sqrt x) 0 := by
    unfold term normalPDF
    rw [Real.sq_sqrt hx, show (-0.5 : ℝ) * x = -x / 2 by ring]
    simp only [mul_zero, zero_add, pow_one, Nat.doubleFactorial, Nat.cast_one, div_one, mul_one]
    ring
  rw [e0]
  have := forUp_inv (lo := 1) (hi := n + 1) (fun j (s : ℝ × ℝ) => (s.1 + s.2 * (x / ((2 * j + 1 : Nat) : ℝ)), s.2 * (x / ((2 * j + 1 : Nat) : ℝ))))
    (term (Real.sqrt x) 0, term (Real.sqrt x) 0)
    (P := fun k (s : ℝ × ℝ) => s = (psum (Real.sqrt x) (k - 1), term (Real.sqrt x) (k - 1))) (by omega) (by simp [psum]) (by
      intro j s h1 h2 ih
      rw [ih]
      obtain ⟨i, rfl⟩ : ∃ i, j = i + 1 := ⟨j - 1, by omega⟩
      simp only [Nat.add_sub_cancel]
      have e : term (Real.sqrt x) i * (x / ((2 * (i + 1) + 1 : ℕ) : ℝ)) = term (Real.sqrt x) (i + 1) := by
        rw [term_succ, Real.sq_sqrt hx]; push_cast; ring
      rw [e, psum_succ])
  rw [this]
  rfl

/-- C182, `zChi2CumDistrib`: the integral of the density from 0 to x within 2.4e-14, for every number of degrees of freedom. -/
theorem zChi2CumDistrib_correct (absorb : ℝ → ℝ → Bool) (ha : AbsorbOk absorb (1 / 2 ^ 53)) (x : ℝ) (hx : 0 ≤ x) (k : Nat) (hk : 0 < k) :
    ∃ p, zChi2CumDistrib absorb x k = .ok p ∧ |p - ∫ u in (0:ℝ)..x, chi2PDF k u| ≤ 2.4 / 10 ^ 14 := by
  obtain ⟨p, hp, hb⟩ := zNormalCumDistrib_correct absorb ha (Real.sqrt x) 0 1 one_pos
  rw [sub_zero, div_one] at hb
  unfold zChi2CumDistrib
  by_cases h1 : k = 1
  · subst h1
    rw [if_pos rfl, hp]
    refine ⟨_, rfl, ?_⟩
    have h := chi2_odd 0 x hx
    simp only [mul_zero, pow_zero, mul_one, zero_add] at h
    have hd : (((0 - 1)‼ : ℕ) : ℝ) = 1 := by norm_num
    simp only [hd, div_one] at h
    rw [← h, ← cdf_sub, show 2 * p - 1 - 2 * (normalCDF (Real.sqrt x) - 1 / 2) = 2 * (p - normalCDF (Real.sqrt x)) by ring, abs_mul, abs_two]
    norm_num at hb ⊢
    linarith
  · rw [if_neg h1]
    by_cases h2 : k % 2 = 1
    · obtain ⟨n, rfl⟩ : ∃ n, k = 2 * (n + 1) + 1 := ⟨k / 2 - 1, by omega⟩
      rw [if_pos h2, hp]
      refine ⟨_, rfl, ?_⟩
      rw [show (2 * (n + 1) + 1) / 2 = n + 1 by omega, chi2SumOdd_eq x hx, ← chi2_odd (n + 1) x hx,
        show 2 * (n + 1) - 1 = 2 * n + 1 by omega, show 2 * (n + 1) = 2 * n + 2 by ring, ← remainder,
        show 2 * p - 1 - 2 * psum (Real.sqrt x) n - 2 * (normalCDF (Real.sqrt x) - 1 / 2 - psum (Real.sqrt x) n) = 2 * (p - normalCDF (Real.sqrt x)) by ring,
        abs_mul, abs_two]
      norm_num at hb ⊢
      linarith
    · obtain ⟨m, rfl⟩ : ∃ m, k = 2 * (m + 1) := ⟨k / 2 - 1, by omega⟩
      rw [if_neg h2]
      refine ⟨_, rfl, ?_⟩
      rw [show 2 * (m + 1) / 2 = m + 1 by omega]
      obtain ⟨d0, d1⟩ := Stat.chi2CumEven_hasDerivAt (m + 1) (by omega)
      rw [chi2_of (2 * (m + 1)) (by omega) (fun x => Stat.chi2CumEven x (m + 1)) x hx
        (fun u _ => (d1 u).continuousAt.continuousWithinAt) (fun u _ => by rw [chi2PDF_even]; exact d1 u) d0, sub_self, abs_zero]
      positivity

/-- C182, `zChi2Distrib`: the density, up to a relative error of 4e-9. -/
theorem zChi2Distrib_correct (x : ℝ) (k : Nat) (hk : 0 < k) (hx : 0 < x) : |zChi2Distrib x k - chi2PDF k x| ≤ 4 / 10 ^ 9 * chi2PDF k x := by
  have hk' : (0 : ℝ) < (k : ℝ) / 2 := by positivity
  have hg := SF.zGamma_error ((k : ℝ) / 2) hk'
  have hG := Real.Gamma_pos_of_pos hk'
  set G := Real.Gamma ((k : ℝ) / 2) with hGd
  set g := SF.zGamma ((k : ℝ) / 2) with hgd
  rw [abs_le] at hg
  have hg0 : 0 < g := by linarith
  have e : zChi2Distrib x k = chi2PDF k x * (G / g) := by
    unfold zChi2Distrib chi2PDF
    simp only
    rw [show (0.5 : ℝ) * k = (k : ℝ) / 2 by ring, show (-0.5 : ℝ) * x = -x / 2 by ring, ← hGd, ← hgd, show (0.5 : ℝ) = 2⁻¹ by norm_num,
      Real.inv_rpow (by norm_num)]
    have : (2 : ℝ) ^ ((k : ℝ) / 2) ≠ 0 := (Real.rpow_pos_of_pos (by norm_num) _).ne'
    field_simp
  have hp := chi2PDF_nonneg k hk hx.le
  rw [e, show chi2PDF k x * (G / g) - chi2PDF k x = (G / g - 1) * chi2PDF k x by ring, abs_mul, abs_of_nonneg hp]
  refine mul_le_mul_of_nonneg_right ?_ hp
  rw [abs_le, le_sub_iff_add_le, sub_le_iff_le_add, le_div_iff₀ hg0, div_le_iff₀ hg0]
  constructor <;> nlinarith

/-! ## The hypotheses can be met -/

/-- Rounding as modelled: a sum absorbs the terms below 2^-54 of it. -/
example : AbsorbOk (fun p t => decide (|t| ≤ 1 / 2 ^ 54 * |p|)) (1 / 2 ^ 53) := by
  intro p t
  have := abs_nonneg p
  simp only [decide_eq_true_eq]
  constructor <;> intro h <;> refine h.trans (mul_le_mul_of_nonneg_right (by norm_num) this)

/-- Two values of the Poisson distribution. -/
example : zPoissonDistrib 2 3 = .ok (Real.exp (-3) * 3 ^ 2 / 2) ∧ zPoissonDistrib (-1) 3 = .fail :=
  ⟨by have := zPoissonDistrib_partial 2 3; simpa using this, zPoissonDistrib_violated (-1) (by norm_num) 3⟩

/-- The median of the normal distribution. -/
example : normalCDF ((5 - 5) / 2) = 1 / 2 := by
  have hc := cdf_sub 0
  rw [intervalIntegral.integral_same, zero_div] at hc
  rw [sub_self, zero_div]; linarith

end Zm.Distrib
