import Verif.Props.SF

/-!
# Fresnel integrals (C122)
-/
set_option linter.unusedSectionVars false

namespace Zm.SF
open Zm Finset MeasureTheory

/-- The integrals of sin(f t^2) and cos(f t^2) from 0 to x. -/
noncomputable def fresS (f x : ℝ) : ℝ := ∫ t in (0:ℝ)..x, Real.sin (f * t^2)
/-- The cosine integral. -/
noncomputable def fresC (f x : ℝ) : ℝ := ∫ t in (0:ℝ)..x, Real.cos (f * t^2)

/-- Signs of the sine series. -/
def ss (k : Nat) : ℝ := if k % 2 = 0 then 0 else if k % 4 ≤ 1 then 1 else -1
/-- Signs of the cosine series. -/
def cs (k : Nat) : ℝ := if k % 2 = 0 then (if k % 4 ≤ 1 then 1 else -1) else 0

theorem I_pow (k : Nat) : Complex.I ^ k = cs k + ss k * Complex.I := by
  have h := Nat.mod_lt k (by norm_num : 4 > 0)
  have e : Complex.I ^ k = Complex.I ^ (k % 4) := by
    conv_lhs => rw [← Nat.div_add_mod k 4, pow_add, pow_mul, Complex.I_pow_four, one_pow, one_mul]
  rw [e]
  unfold cs ss
  have h2 : k % 2 = (k % 4) % 2 := by omega
  rw [h2]
  generalize k % 4 = r at h
  interval_cases r <;> simp [pow_succ]

theorem trig_rem (y : ℝ) (n : Nat) : |Real.cos y - ∑ k ∈ range n, cs k * (y^k / k.factorial)| ≤ |y|^n / n.factorial ∧
    |Real.sin y - ∑ k ∈ range n, ss k * (y^k / k.factorial)| ≤ |y|^n / n.factorial := by
  have h := exp_remainder (y * Complex.I) (by simp) n
  rw [norm_mul, Complex.norm_I, mul_one, Complex.norm_real, Real.norm_eq_abs] at h
  have e : Complex.exp (y * Complex.I) - ∑ k ∈ range n, (y * Complex.I) ^ k / k.factorial =
      ((Real.cos y - ∑ k ∈ range n, cs k * (y^k / k.factorial) : ℝ) : ℂ) + ((Real.sin y - ∑ k ∈ range n, ss k * (y^k / k.factorial) : ℝ) : ℂ) * Complex.I := by
    rw [Complex.exp_mul_I]
    push_cast
    have : ∀ k ∈ range n, (y * Complex.I) ^ k / (k.factorial : ℂ) = (cs k : ℂ) * ((y:ℂ)^k / k.factorial) + (ss k : ℂ) * ((y:ℂ)^k / k.factorial) * Complex.I := by
      intro k _
      rw [mul_pow, I_pow]
      ring
    rw [sum_congr rfl this, sum_add_distrib, ← sum_mul]
    ring
  rw [e] at h
  constructor
  · refine le_trans (le_trans (le_of_eq ?_) (Complex.abs_re_le_norm _)) h
    rw [Complex.add_re, Complex.ofReal_re, Complex.re_ofReal_mul, Complex.I_re, mul_zero, add_zero]
  · refine le_trans (le_trans (le_of_eq ?_) (Complex.abs_im_le_norm _)) h
    rw [Complex.add_im, Complex.ofReal_im, Complex.im_ofReal_mul, Complex.I_im, mul_one, zero_add]

/-- The term of the series at `x`. -/
noncomputable def ft (f x : ℝ) (k : Nat) : ℝ := x * (f * x^2) ^ k / k.factorial

/-- Integration of the remainder of a series in f t^2. -/
theorem intg_rem (f x : ℝ) (n : Nat) (g : ℝ → ℝ) (hg : Continuous g) (w : Nat → ℝ) (h : ∀ y, |g y - ∑ k ∈ range n, w k * (y^k / k.factorial)| ≤ |y|^n / n.factorial) :
    |(∫ t in (0:ℝ)..x, g (f * t^2)) - ∑ k ∈ range n, w k * (ft f x k / (2*k+1))| ≤ |ft f x n| / (2*n+1) := by
  have hc : Continuous fun t : ℝ => ∑ k ∈ range n, w k * ((f * t^2)^k / (k.factorial : ℝ)) := by fun_prop
  have es : ∑ k ∈ range n, w k * (ft f x k / (2*k+1)) = ∫ t in (0:ℝ)..x, ∑ k ∈ range n, w k * ((f * t^2)^k / (k.factorial : ℝ)) := by
    rw [intervalIntegral.integral_finsetSum (fun k _ => (Continuous.intervalIntegrable (by fun_prop) _ _))]
    refine sum_congr rfl fun k _ => ?_
    have e : ∀ t : ℝ, w k * ((f * t^2)^k / (k.factorial : ℝ)) = w k * f^k / k.factorial * t^(2*k) := by
      intro t
      rw [mul_pow, ← pow_mul]
      ring
    simp only [e]
    rw [intervalIntegral.integral_const_mul, integral_pow, ft, mul_pow, ← pow_mul]
    push_cast
    ring
  rw [es, ← intervalIntegral.integral_sub (Continuous.intervalIntegrable (by fun_prop) _ _) (hc.intervalIntegrable _ _)]
  have hb := intervalIntegral.norm_integral_le_abs_of_norm_le (a := 0) (b := x) (μ := volume) (f := fun t : ℝ => g (f*t^2) - ∑ k ∈ range n, w k * ((f * t^2)^k / (k.factorial : ℝ)))
    (g := fun t : ℝ => |f * t^2| ^ n / n.factorial) (Filter.Eventually.of_forall fun t => h (f*t^2)) (Continuous.intervalIntegrable (by fun_prop) _ _)
  refine hb.trans (le_of_eq ?_)
  have e : ∀ t : ℝ, |f * t^2| ^ n / (n.factorial : ℝ) = |f|^n / n.factorial * t ^ (2*n) := by
    intro t
    rw [abs_mul, mul_pow, abs_of_nonneg (sq_nonneg t), ← pow_mul]
    ring
  simp only [e]
  rw [intervalIntegral.integral_const_mul, integral_pow, zero_pow (by omega), sub_zero, ft, abs_mul, abs_div, abs_div, abs_div, abs_mul, abs_pow, abs_pow, abs_pow, abs_mul, abs_pow, mul_pow, ← pow_mul,
    Nat.abs_cast, abs_of_nonneg (by positivity : (0:ℝ) ≤ ((2*n : ℕ) : ℝ) + 1), abs_abs]
  push_cast
  ring

theorem fres_rem (f x : ℝ) (n : Nat) : |fresS f x - ∑ k ∈ range n, ss k * (ft f x k / (2*k+1))| ≤ |ft f x n| / (2*n+1) ∧
    |fresC f x - ∑ k ∈ range n, cs k * (ft f x k / (2*k+1))| ≤ |ft f x n| / (2*n+1) :=
  ⟨intg_rem f x n Real.sin Real.continuous_sin ss fun y => (trig_rem y n).2, intg_rem f x n Real.cos Real.continuous_cos cs fun y => (trig_rem y n).1⟩

/-- The partial sums of the series. -/
noncomputable def sS (f x : ℝ) (n : Nat) : ℝ := ∑ k ∈ range n, ss k * (ft f x k / (2*k+1))
/-- The partial sums of the series. -/
noncomputable def cS (f x : ℝ) (n : Nat) : ℝ := ∑ k ∈ range n, cs k * (ft f x k / (2*k+1))

/-- The test of the loop. -/
def gilTest (tol f x : ℝ) (j : Nat) : Prop := ft f x j < |if j % 2 = 0 then cS f x (j+1) else sS f x (j+1)| * tol

theorem gilLoop_spec (tol x : ℝ) (k : Nat) : ∀ i g, 1 ≤ i → g.s = sS (Real.pi/2) x i → g.c = cS (Real.pi/2) x i → g.t = ft (Real.pi/2) x (i-1) → g.sum = (if i % 2 = 0 then g.c else g.s) →
    (∃ j, i ≤ j ∧ j < i+k ∧ (gilLoop tol (Real.pi/2*x*x) k i g).2 = true ∧ (gilLoop tol (Real.pi/2*x*x) k i g).1.s = sS (Real.pi/2) x j ∧
      (gilLoop tol (Real.pi/2*x*x) k i g).1.c = cS (Real.pi/2) x j ∧ gilTest tol (Real.pi/2) x j) ∨
    ((gilLoop tol (Real.pi/2*x*x) k i g).2 = false ∧ ∀ j, i ≤ j → j < i+k → ¬ gilTest tol (Real.pi/2) x j) := by
  induction k with
  | zero =>
    intro i g _ _ _ _ _
    exact Or.inr ⟨rfl, fun j h1 h2 => by omega⟩
  | succ k ih =>
    intro i g hi hs hc ht hsum
    have et : g.t * (Real.pi/2*x*x / i) = ft (Real.pi/2) x i := by
      obtain ⟨m, rfl⟩ : ∃ m, i = m+1 := ⟨i-1, by omega⟩
      rw [ht, Nat.add_sub_cancel, ft, ft, Nat.factorial_succ]
      push_cast
      have a1 : ((m:ℝ) + 1) ≠ 0 := by exact_mod_cast Nat.succ_ne_zero m
      have a2 : (m.factorial : ℝ) ≠ 0 := by exact_mod_cast Nat.factorial_ne_zero m
      field_simp
      ring
    have es : i % 2 ≠ 0 → g.sum + (if i % 4 ≤ 1 then ft (Real.pi/2) x i else -ft (Real.pi/2) x i) / (2*i+1) = sS (Real.pi/2) x (i+1) := by
      intro h
      rw [hsum, if_neg h, hs, sS, sS, sum_range_succ, ss, if_neg h]
      split_ifs <;> ring
    have ec : i % 2 = 0 → g.sum + (if i % 4 ≤ 1 then ft (Real.pi/2) x i else -ft (Real.pi/2) x i) / (2*i+1) = cS (Real.pi/2) x (i+1) := by
      intro h
      rw [hsum, if_pos h, hc, cS, cS, sum_range_succ, cs, if_pos h]
      split_ifs <;> ring
    have s0 : i % 2 = 0 → sS (Real.pi/2) x (i+1) = sS (Real.pi/2) x i := by
      intro h
      rw [sS, sS, sum_range_succ, ss, if_pos h]
      ring
    have c0 : i % 2 ≠ 0 → cS (Real.pi/2) x (i+1) = cS (Real.pi/2) x i := by
      intro h
      rw [cS, cS, sum_range_succ, cs, if_neg h]
      ring
    have hT : (ft (Real.pi/2) x i < |g.sum + (if i % 4 ≤ 1 then ft (Real.pi/2) x i else -ft (Real.pi/2) x i) / (2*i+1)| * tol) ↔ gilTest tol (Real.pi/2) x i := by
      unfold gilTest
      by_cases h : i % 2 = 0
      · rw [ec h, if_pos h]
      · rw [es h, if_neg h]
    rw [gilLoop]
    rw [et]
    by_cases hb : ft (Real.pi/2) x i < |g.sum + (if i % 4 ≤ 1 then ft (Real.pi/2) x i else -ft (Real.pi/2) x i) / (2*i+1)| * tol
    · rw [if_pos hb]
      exact Or.inl ⟨i, le_refl _, by omega, rfl, hs, hc, hT.1 hb⟩
    · rw [if_neg hb]
      have hnb : ¬ gilTest tol (Real.pi/2) x i := fun h => hb (hT.2 h)
      by_cases h : i % 2 = 0
      · rw [if_neg (by omega)]
        rcases ih (i+1) ⟨g.s, g.sum + (if i % 4 ≤ 1 then ft (Real.pi/2) x i else -ft (Real.pi/2) x i) / (2*i+1), g.s, ft (Real.pi/2) x i⟩ (by omega) (hs.trans (s0 h).symm) (ec h) rfl (if_neg (by omega)).symm with ⟨j, h1, h2, h3⟩ | ⟨h1, h2⟩
        · exact Or.inl ⟨j, by omega, by omega, h3⟩
        · refine Or.inr ⟨h1, fun j hj1 hj2 => ?_⟩
          by_cases e : j = i
          · rw [e]; exact hnb
          · exact h2 j (by omega) (by omega)
      · rw [if_pos h]
        rcases ih (i+1) ⟨g.sum + (if i % 4 ≤ 1 then ft (Real.pi/2) x i else -ft (Real.pi/2) x i) / (2*i+1), g.c, g.c, ft (Real.pi/2) x i⟩ (by omega) (es h) (hc.trans (c0 h).symm) rfl (if_pos (by omega)).symm with ⟨j, h1, h2, h3⟩ | ⟨h1, h2⟩
        · exact Or.inl ⟨j, by omega, by omega, h3⟩
        · refine Or.inr ⟨h1, fun j hj1 hj2 => ?_⟩
          by_cases e : j = i
          · rw [e]; exact hnb
          · exact h2 j (by omega) (by omega)

theorem gilbert_spec (tol x : ℝ) (limit : Nat) :
    (∃ j, 1 ≤ j ∧ j < 1+limit ∧ gilbert tol limit x = (sS (Real.pi/2) x j, cS (Real.pi/2) x j, true) ∧ gilTest tol (Real.pi/2) x j) ∨
    ((gilbert tol limit x).2.2 = false ∧ ∀ j, 1 ≤ j → j < 1+limit → ¬ gilTest tol (Real.pi/2) x j) := by
  have := gilLoop_spec tol x limit 1 ⟨0, x, 0, x⟩ (le_refl _) (by simp [sS, ss]) (by simp [cS, cs, ft]) (by simp [ft]) rfl
  unfold gilbert
  rcases this with ⟨j, h1, h2, h3, h4, h5, h6⟩ | ⟨h1, h2⟩
  · refine Or.inl ⟨j, h1, h2, ?_, h6⟩
    dsimp only
    rw [h3, h4, h5]
  · exact Or.inr ⟨h1, h2⟩

theorem fres_le (f x : ℝ) : |fresS f x| ≤ |x| ∧ |fresC f x| ≤ |x| := by
  have h1 := intervalIntegral.norm_integral_le_of_norm_le_const (a := 0) (b := x) (f := fun t : ℝ => Real.sin (f * t^2)) (C := 1) (fun t _ => Real.abs_sin_le_one _)
  have h2 := intervalIntegral.norm_integral_le_of_norm_le_const (a := 0) (b := x) (f := fun t : ℝ => Real.cos (f * t^2)) (C := 1) (fun t _ => Real.abs_cos_le_one _)
  rw [one_mul, sub_zero] at h1 h2
  exact ⟨h1, h2⟩

/-- When the loop ends by its test, the values are the integrals up to the tolerance. -/
theorem gilTest_close (tol x : ℝ) (ht0 : 0 ≤ tol) (ht : tol ≤ 1) (hx : 0 ≤ x) (j : Nat) (hj : 1 ≤ j) (h : gilTest tol (Real.pi/2) x j) :
    |sS (Real.pi/2) x j - fresS (Real.pi/2) x| ≤ tol * x ∧ |cS (Real.pi/2) x j - fresC (Real.pi/2) x| ≤ tol * x := by
  have hf : 0 ≤ ft (Real.pi/2) x j := by unfold ft; have := Real.pi_pos; positivity
  have hr := fres_rem (Real.pi/2) x j
  have hl := fres_le (Real.pi/2) x
  rw [abs_of_nonneg hx] at hl
  rw [abs_of_nonneg hf] at hr
  have hj3 : (3:ℝ) ≤ 2*j+1 := by
    have : (1:ℝ) ≤ j := by exact_mod_cast hj
    linarith
  have hd : ft (Real.pi/2) x j / (2*j+1) ≤ ft (Real.pi/2) x j / 3 := div_le_div_of_nonneg_left hf (by norm_num) hj3
  have hd0 : 0 ≤ ft (Real.pi/2) x j / (2*j+1) := by positivity
  change |_ - sS (Real.pi/2) x j| ≤ _ ∧ |_ - cS (Real.pi/2) x j| ≤ _ at hr
  have hsum : |if j % 2 = 0 then cS (Real.pi/2) x (j+1) else sS (Real.pi/2) x (j+1)| ≤ x + 2 * (ft (Real.pi/2) x j / 3) := by
    by_cases hp : j % 2 = 0
    · rw [if_pos hp, cS, sum_range_succ, ← cS]
      have a1 : |cs j * (ft (Real.pi/2) x j / (2*j+1))| ≤ ft (Real.pi/2) x j / 3 := by
        rw [abs_mul, abs_of_nonneg hd0]
        have : |cs j| = 1 := by unfold cs; rw [if_pos hp]; split_ifs <;> norm_num
        rw [this, one_mul]; exact hd
      have := abs_le.1 hr.2; have := abs_le.1 hl.2; have := abs_le.1 a1
      rw [abs_le]
      constructor <;> linarith
    · rw [if_neg hp, sS, sum_range_succ, ← sS]
      have a1 : |ss j * (ft (Real.pi/2) x j / (2*j+1))| ≤ ft (Real.pi/2) x j / 3 := by
        rw [abs_mul, abs_of_nonneg hd0]
        have : |ss j| = 1 := by unfold ss; rw [if_neg hp]; split_ifs <;> norm_num
        rw [this, one_mul]; exact hd
      have := abs_le.1 hr.1; have := abs_le.1 hl.1; have := abs_le.1 a1
      rw [abs_le]
      constructor <;> linarith
  unfold gilTest at h
  have h3 : ft (Real.pi/2) x j ≤ tol * x * 3 := by
    have : ft (Real.pi/2) x j ≤ (x + 2 * (ft (Real.pi/2) x j / 3)) * tol := h.le.trans (mul_le_mul_of_nonneg_right hsum ht0)
    nlinarith
  constructor
  · rw [abs_sub_comm]; linarith [hr.1]
  · rw [abs_sub_comm]; linarith [hr.2]

/-- The cosine integral is a good part of the interval. -/
theorem fresC_lower (x : ℝ) (hx : 0 ≤ x) (h : x ≤ 3/2) : x / 5 ≤ fresC (Real.pi/2) x := by
  have hr := (fres_rem (Real.pi/2) x 8).2
  have hp1 := Real.pi_pos
  have hp2 := Real.pi_lt_d2
  have hf : 0 ≤ ft (Real.pi/2) x 8 := by unfold ft; positivity
  rw [abs_of_nonneg hf] at hr
  have hu0 : 0 ≤ Real.pi/2 * x^2 := by positivity
  have hu : Real.pi/2 * x^2 ≤ 3.544 := by nlinarith
  simp only [sum_range_succ, sum_range_zero, ft] at hr
  generalize Real.pi/2 * x^2 = u at hr hu hu0
  have hc0 : cs 0 = 1 := by norm_num [cs]
  have hc1 : cs 1 = 0 := by norm_num [cs]
  have hc2 : cs 2 = -1 := by norm_num [cs]
  have hc3 : cs 3 = 0 := by norm_num [cs]
  have hc4 : cs 4 = 1 := by norm_num [cs]
  have hc5 : cs 5 = 0 := by norm_num [cs]
  have hc6 : cs 6 = -1 := by norm_num [cs]
  have hc7 : cs 7 = 0 := by norm_num [cs]
  rw [hc0, hc1, hc2, hc3, hc4, hc5, hc6, hc7] at hr
  norm_num [Nat.factorial] at hr
  have h2 := (abs_le.1 hr).1
  have hw : u^2 ≤ 12.6 := by nlinarith
  have key : (1:ℝ)/5 ≤ 1 - u^2/10 + u^4/216 - u^6/9360 - u^8/685440 := by
    have e4 : u^4 = (u^2)^2 := by ring
    have e6 : u^6 = (u^2)^3 := by ring
    have e8 : u^8 = (u^2)^4 := by ring
    rw [e4, e6, e8]
    have hw0 : 0 ≤ u^2 := sq_nonneg u
    generalize u^2 = w at hw hw0
    have a1 : w^2 ≤ 12.6 * w := by nlinarith
    have a2 : w^4 ≤ 12.6 * w^3 := by nlinarith [pow_nonneg hw0 3]
    have a3 : 0 ≤ (12.6 - w) * (w - 11/2)^2 := mul_nonneg (by linarith) (sq_nonneg _)
    nlinarith
  nlinarith [mul_le_mul_of_nonneg_left key hx]

/-- The loop ends within 40 turns. -/
theorem gilTest_40 (x : ℝ) (hx : 0 < x) (h : x ≤ 3/2) : gilTest (1/10^12) (Real.pi/2) x 40 := by
  have hp1 := Real.pi_pos
  have hp2 := Real.pi_lt_d2
  have hf : 0 ≤ ft (Real.pi/2) x 40 := by unfold ft; positivity
  have hu0 : 0 ≤ Real.pi/2 * x^2 := by positivity
  have hu : Real.pi/2 * x^2 ≤ 3.6 := by nlinarith
  have hft : ft (Real.pi/2) x 40 ≤ x / 10^20 := by
    unfold ft
    have : (Real.pi/2 * x^2)^40 ≤ 3.6^40 := pow_le_pow_left₀ hu0 hu 40
    have h2 : (3.6:ℝ)^40 / (40:Nat).factorial ≤ 1 / 10^20 := by norm_num [Nat.factorial]
    calc x * (Real.pi/2 * x^2)^40 / (40:Nat).factorial ≤ x * 3.6^40 / (40:Nat).factorial := by gcongr
      _ = x * (3.6^40 / (40:Nat).factorial) := by ring
      _ ≤ x * (1/10^20) := mul_le_mul_of_nonneg_left h2 hx.le
      _ = _ := by ring
  have hr := (fres_rem (Real.pi/2) x 40).2
  rw [abs_of_nonneg hf] at hr
  change |_ - cS (Real.pi/2) x 40| ≤ _ at hr
  have hl := fresC_lower x hx.le h
  unfold gilTest
  rw [if_pos (by norm_num), cS, sum_range_succ, ← cS]
  have hc : cs 40 = 1 := by norm_num [cs]
  rw [hc, one_mul]
  have h1 := (abs_le.1 hr).2
  push_cast at h1 ⊢
  have h2 : 0 ≤ ft (Real.pi/2) x 40 / (2*40+1) := by positivity
  have h3 : ft (Real.pi/2) x 40 / (2*40+1) ≤ ft (Real.pi/2) x 40 := div_le_self hf (by norm_num)
  have h4 : x / 10 ≤ |cS (Real.pi/2) x 40 + ft (Real.pi/2) x 40 / (2*40+1)| := by
    refine le_trans ?_ (le_abs_self _)
    have : x / 10^20 ≤ x / 10 := by gcongr; norm_num
    linarith
  have h5 : x / 10^20 < x / 10 * (1/10^12) := by
    rw [div_mul_div_comm, mul_one]
    exact div_lt_div_of_pos_left hx (by norm_num) (by norm_num)
  refine lt_of_le_of_lt hft (lt_of_lt_of_le h5 ?_)
  exact mul_le_mul_of_nonneg_right h4 (by norm_num)

theorem fres_neg (f x : ℝ) : fresS f (-x) = -fresS f x ∧ fresC f (-x) = -fresC f x := by
  unfold fresS fresC
  have h1 := intervalIntegral.integral_comp_neg (a := 0) (b := -x) (fun t : ℝ => Real.sin (f * t^2))
  have h2 := intervalIntegral.integral_comp_neg (a := 0) (b := -x) (fun t : ℝ => Real.cos (f * t^2))
  simp only [neg_sq, neg_neg, neg_zero] at h1 h2
  rw [h1, h2]
  exact ⟨intervalIntegral.integral_symm _ _, intervalIntegral.integral_symm _ _⟩

/-- C122, `zFresnelIntgPI_2` on [-1.5,1.5] with the tolerance and limit of the library: it succeeds, and the values are the integrals up to 10^-12 |x|. -/
theorem zFresnelIntgPI_2_series (limit : Nat) (hl : 40 ≤ limit) (x : ℝ) (hx : |x| ≤ 3/2) :
    ∃ s c, zFresnelIntgPI_2 (1/10^12) limit x = (s, c, true) ∧ |s - fresS (Real.pi/2) x| ≤ 1/10^12 * |x| ∧ |c - fresC (Real.pi/2) x| ≤ 1/10^12 * |x| := by
  have pos : ∀ y : ℝ, 0 ≤ y → y ≤ 3/2 → ∃ s c, (if y < Real.sqrt 1.0e-30 then (0, y, true) else if y ≤ 1.5 then gilbert (1/10^12) limit y else lentz (1/10^12) limit y) = (s, c, true) ∧
      |s - fresS (Real.pi/2) y| ≤ 1/10^12 * y ∧ |c - fresC (Real.pi/2) y| ≤ 1/10^12 * y := by
    intro y hy hy2
    by_cases h0 : y < Real.sqrt 1.0e-30
    · rw [if_pos h0]
      refine ⟨0, y, rfl, ?_⟩
      have hr := fres_rem (Real.pi/2) y 1
      have hp := Real.pi_pos
      have hp2 := Real.pi_lt_d2
      have hf : 0 ≤ ft (Real.pi/2) y 1 := by unfold ft; positivity
      rw [abs_of_nonneg hf] at hr
      have h1 : y^2 < 1.0e-30 := by
        have := Real.lt_sqrt hy |>.1 h0
        exact this
      have hft : ft (Real.pi/2) y 1 / (2*((1:Nat):ℝ)+1) ≤ 1/10^12 * y := by
        unfold ft
        norm_num [Nat.factorial]
        have : y * (Real.pi/2*y^2) ≤ y * (3 / 10^12) := by
          refine mul_le_mul_of_nonneg_left ?_ hy
          norm_num at h1 ⊢
          nlinarith
        norm_num at this
        linarith
      simp [sum_range_succ, ss, cs, ft] at hr
      simp [ft] at hft
      constructor
      · rw [zero_sub, abs_neg]; exact hr.1.trans (by simpa using hft)
      · rw [abs_sub_comm]; exact hr.2.trans (by simpa using hft)
    · rw [if_neg h0, if_pos (by norm_num; linarith)]
      have hy0 : 0 < y := lt_of_lt_of_le (Real.sqrt_pos.2 (by norm_num)) (not_lt.1 h0)
      rcases gilbert_spec (1/10^12) y limit with ⟨j, h1, h2, h3, h4⟩ | ⟨h1, h2⟩
      · exact ⟨_, _, h3, gilTest_close (1/10^12) y (by norm_num) (by norm_num) hy j h1 h4⟩
      · exact absurd (gilTest_40 y hy0 hy2) (h2 40 (by norm_num) (by omega))
  unfold zFresnelIntgPI_2
  obtain ⟨s, c, e, h1, h2⟩ := pos |x| (abs_nonneg x) hx
  dsimp only
  rw [e]
  by_cases hn : x < 0
  · rw [if_pos hn]
    refine ⟨-s, -c, rfl, ?_⟩
    rw [abs_of_neg hn, (fres_neg (Real.pi/2) x).1] at h1
    rw [abs_of_neg hn, (fres_neg (Real.pi/2) x).2] at h2
    rw [abs_of_neg hn]
    constructor
    · rw [← abs_neg]; convert h1 using 2; ring
    · rw [← abs_neg]; convert h2 using 2; ring
  · rw [if_neg hn]
    rw [abs_of_nonneg (not_lt.1 hn)] at h1 h2 ⊢
    exact ⟨s, c, rfl, h1, h2⟩

/-- Change of the scale of the integrals. -/
theorem fres_scale (x f r : ℝ) (hr : r ≠ 0) (h : f * r^2 = Real.pi/2 ∨ f * r^2 = -(Real.pi/2)) :
    fresC f x = r * fresC (Real.pi/2) (x/r) ∧ fresS f x = (if f * r^2 = Real.pi/2 then r else -r) * fresS (Real.pi/2) (x/r) := by
  have hp := Real.pi_pos
  have h1 := intervalIntegral.integral_comp_div (a := 0) (b := x) (fun t : ℝ => Real.cos (f * r^2 * t^2)) hr
  have h2 := intervalIntegral.integral_comp_div (a := 0) (b := x) (fun t : ℝ => Real.sin (f * r^2 * t^2)) hr
  rw [zero_div, smul_eq_mul] at h1 h2
  have e : ∀ t : ℝ, f * r^2 * (t/r)^2 = f * t^2 := by
    intro t
    field_simp
  simp only [e] at h1 h2
  unfold fresC fresS
  rw [h1, h2]
  rcases h with h | h
  · rw [if_pos h, h]
    exact ⟨rfl, rfl⟩
  · rw [if_neg (by rw [h]; linarith), h]
    constructor
    · congr 1
      refine intervalIntegral.integral_congr fun t _ => ?_
      rw [neg_mul, Real.cos_neg]
    · rw [neg_mul, ← mul_neg, ← intervalIntegral.integral_neg]
      congr 1
      refine intervalIntegral.integral_congr fun t _ => ?_
      rw [neg_mul, Real.sin_neg]

/-- The scale of `zFresnelIntgScale`. -/
noncomputable def fscale (f : ℝ) : ℝ := Real.sqrt (Real.pi / 2 / |f|)

theorem fscale_spec (f : ℝ) (hf : f ≠ 0) : 0 < fscale f ∧ (0 < f → f * fscale f^2 = Real.pi/2) ∧ (f < 0 → f * fscale f^2 = -(Real.pi/2)) := by
  have hp := Real.pi_pos
  have ha : 0 < |f| := abs_pos.2 hf
  have h : fscale f^2 = Real.pi/2/|f| := Real.sq_sqrt (by positivity)
  refine ⟨Real.sqrt_pos.2 (by positivity), fun h0 => ?_, fun h0 => ?_⟩
  · rw [h, abs_of_pos h0]; field_simp
  · rw [h, abs_of_neg h0]; field_simp

/-- C122, `zFresnelIntgScale`: its error is that of the integrals of pi/2, scaled; a factor in the tolerance is taken for zero. -/
theorem zFresnelIntgScale_error (tol : ℝ) (ht : 0 ≤ tol) (fr : ℝ → ℝ × ℝ × Bool) (x f e : ℝ)
    (h : tol < |f| → |(fr (x / fscale f)).1 - fresS (Real.pi/2) (x / fscale f)| ≤ e ∧ |(fr (x / fscale f)).2.1 - fresC (Real.pi/2) (x / fscale f)| ≤ e) :
    (tol < |f| → |(zFresnelIntgScale tol fr x f).1 - fresS f x| ≤ fscale f * e ∧ |(zFresnelIntgScale tol fr x f).2.1 - fresC f x| ≤ fscale f * e ∧
      (zFresnelIntgScale tol fr x f).2.2 = (fr (x / fscale f)).2.2) ∧
    (|f| ≤ tol → |(zFresnelIntgScale tol fr x f).1 - fresS f x| ≤ tol * |x|^3 / 3 ∧ |(zFresnelIntgScale tol fr x f).2.1 - fresC f x| ≤ tol * |x|^3 / 3 ∧
      (zFresnelIntgScale tol fr x f).2.2 = true) := by
  unfold zFresnelIntgScale
  constructor
  · intro hf
    rw [if_neg (not_le.2 hf)]
    have hf0 : f ≠ 0 := fun h0 => by rw [h0, abs_zero] at hf; linarith
    obtain ⟨hr, hpos, hneg⟩ := fscale_spec f hf0
    obtain ⟨h1, h2⟩ := h hf
    have hp := Real.pi_pos
    dsimp only
    rw [← fscale]
    have hs := fres_scale x f (fscale f) hr.ne' (by
      rcases lt_or_gt_of_ne hf0 with h0 | h0
      · exact Or.inr (hneg h0)
      · exact Or.inl (hpos h0))
    rw [hs.1, hs.2]
    refine ⟨?_, ?_, rfl⟩
    · rcases lt_or_gt_of_ne hf0 with h0 | h0
      · rw [if_neg (by linarith), if_neg (by rw [hneg h0]; linarith)]
        rw [show (fr (x / fscale f)).1 * -fscale f - -fscale f * fresS (Real.pi/2) (x / fscale f) = -(fscale f * ((fr (x / fscale f)).1 - fresS (Real.pi/2) (x / fscale f))) by ring, abs_neg, abs_mul, abs_of_pos hr]
        exact mul_le_mul_of_nonneg_left h1 hr.le
      · rw [if_pos h0, if_pos (hpos h0)]
        rw [show (fr (x / fscale f)).1 * fscale f - fscale f * fresS (Real.pi/2) (x / fscale f) = fscale f * ((fr (x / fscale f)).1 - fresS (Real.pi/2) (x / fscale f)) by ring, abs_mul, abs_of_pos hr]
        exact mul_le_mul_of_nonneg_left h1 hr.le
    · rw [show (fr (x / fscale f)).2.1 * fscale f - fscale f * fresC (Real.pi/2) (x / fscale f) = fscale f * ((fr (x / fscale f)).2.1 - fresC (Real.pi/2) (x / fscale f)) by ring, abs_mul, abs_of_pos hr]
      exact mul_le_mul_of_nonneg_left h2 hr.le
  · intro hf
    rw [if_pos hf]
    have hr := fres_rem f x 1
    have hb : |ft f x 1| / (2 * ((1:Nat):ℝ) + 1) ≤ tol * |x|^3/3 := by
      unfold ft
      rw [pow_one, abs_div, abs_mul, abs_mul, abs_pow]
      norm_num [Nat.factorial]
      rw [show x^2 = |x|^2 by rw [sq_abs]]
      have : |f| * |x|^3 ≤ tol * |x|^3 := mul_le_mul_of_nonneg_right hf (by positivity)
      nlinarith
    simp only [sum_range_one, ss, cs, ft] at hr
    norm_num [Nat.factorial] at hr
    unfold ft at hb
    norm_num [Nat.factorial] at hb
    refine ⟨?_, ?_, rfl⟩
    · rw [zero_sub, abs_neg]; exact hr.1.trans hb
    · rw [abs_sub_comm]; exact hr.2.trans hb

/-- C122, `zFresnelIntgScale` with the integrals of the library, when the scaled argument is in [-1.5,1.5]: the values are the integrals up to the tolerance. -/
theorem zFresnelIntgScale_series (limit : Nat) (hl : 40 ≤ limit) (x f : ℝ) (hf : 1/10^12 < |f|) (hx : |f| * x^2 ≤ Real.pi/2 * (3/2)^2) :
    ∃ s c, zFresnelIntgScale (1/10^12) (zFresnelIntgPI_2 (1/10^12) limit) x f = (s, c, true) ∧ |s - fresS f x| ≤ 1/10^12 * |x| ∧ |c - fresC f x| ≤ 1/10^12 * |x| := by
  have hf0 : f ≠ 0 := fun h0 => by rw [h0, abs_zero] at hf; norm_num at hf
  have hr := (fscale_spec f hf0).1
  have hfa : 0 < |f| := abs_pos.2 hf0
  have hsq : fscale f^2 = Real.pi/2/|f| := Real.sq_sqrt (by have := Real.pi_pos; positivity)
  have hb : |x / fscale f| ≤ 3/2 := by
    rw [abs_div, abs_of_pos hr, div_le_iff₀ hr]
    refine abs_le_of_sq_le_sq ?_ (by positivity)
    rw [mul_pow, hsq]
    rw [show (3/2:ℝ)^2 * (Real.pi/2/|f|) = (Real.pi/2 * (3/2)^2)/|f| by ring, le_div_iff₀ hfa]
    linarith
  obtain ⟨s, c, e, h1, h2⟩ := zFresnelIntgPI_2_series limit hl (x / fscale f) hb
  have h := (zFresnelIntgScale_error (1/10^12) (by norm_num) (zFresnelIntgPI_2 (1/10^12) limit) x f (1/10^12 * |x / fscale f|) (fun _ => by rw [e]; exact ⟨h1, h2⟩)).1 hf
  have he : fscale f * (1/10^12 * |x / fscale f|) = 1/10^12 * |x| := by
    rw [abs_div, abs_of_pos hr]
    field_simp
  rw [he, e] at h
  exact ⟨_, _, Prod.ext rfl (Prod.ext rfl h.2.2), h.1, h.2.1⟩

/-- C122, `zFresnelIntg`, the integrals of sin t^2 and cos t^2. -/
theorem zFresnelIntg_series (limit : Nat) (hl : 40 ≤ limit) (x : ℝ) (hx : |x| ≤ 15/8) :
    ∃ s c, zFresnelIntg (1/10^12) (zFresnelIntgPI_2 (1/10^12) limit) x = (s, c, true) ∧ |s - ∫ t in (0:ℝ)..x, Real.sin (t^2)| ≤ 1/10^12 * |x| ∧
      |c - ∫ t in (0:ℝ)..x, Real.cos (t^2)| ≤ 1/10^12 * |x| := by
  have := zFresnelIntgScale_series limit hl x 1 (by norm_num) (by
    rw [abs_one, one_mul, ← sq_abs]
    have := Real.pi_gt_d2
    nlinarith [abs_nonneg x])
  simp only [fresS, fresC, one_mul] at this
  exact this

/-- The sum of two integrals with a phase. -/
theorem fres_phase (x f0 f1 f2 : ℝ) (hf : f2 ≠ 0) : 
    (∫ t in (0:ℝ)..x, Real.sin (f0 + f1*t + f2*t^2)) = (fresC f2 (x + 0.5*f1/f2) - fresC f2 (0.5*f1/f2)) * Real.sin (f0 - 0.25*f1*f1/f2) +
      (fresS f2 (x + 0.5*f1/f2) - fresS f2 (0.5*f1/f2)) * Real.cos (f0 - 0.25*f1*f1/f2) ∧
    (∫ t in (0:ℝ)..x, Real.cos (f0 + f1*t + f2*t^2)) = (fresC f2 (x + 0.5*f1/f2) - fresC f2 (0.5*f1/f2)) * Real.cos (f0 - 0.25*f1*f1/f2) -
      (fresS f2 (x + 0.5*f1/f2) - fresS f2 (0.5*f1/f2)) * Real.sin (f0 - 0.25*f1*f1/f2) := by
  have hiS : ∀ a b : ℝ, IntervalIntegrable (fun t : ℝ => Real.sin (f2 * t^2)) volume a b := fun a b => Continuous.intervalIntegrable (by fun_prop) _ _
  have hiC : ∀ a b : ℝ, IntervalIntegrable (fun t : ℝ => Real.cos (f2 * t^2)) volume a b := fun a b => Continuous.intervalIntegrable (by fun_prop) _ _
  have eC : fresC f2 (x + 0.5*f1/f2) - fresC f2 (0.5*f1/f2) = ∫ t in (0.5*f1/f2)..(x + 0.5*f1/f2), Real.cos (f2*t^2) :=
    intervalIntegral.integral_interval_sub_left (hiC _ _) (hiC _ _)
  have eS : fresS f2 (x + 0.5*f1/f2) - fresS f2 (0.5*f1/f2) = ∫ t in (0.5*f1/f2)..(x + 0.5*f1/f2), Real.sin (f2*t^2) :=
    intervalIntegral.integral_interval_sub_left (hiS _ _) (hiS _ _)
  have sC := intervalIntegral.integral_comp_add_right (a := 0) (b := x) (fun t : ℝ => Real.cos (f2 * t^2)) (0.5*f1/f2)
  have sS := intervalIntegral.integral_comp_add_right (a := 0) (b := x) (fun t : ℝ => Real.sin (f2 * t^2)) (0.5*f1/f2)
  rw [zero_add] at sC sS
  rw [eC, eS, ← sC, ← sS]
  have ea : ∀ t : ℝ, f0 + f1*t + f2*t^2 = f2 * (t + 0.5*f1/f2)^2 + (f0 - 0.25*f1*f1/f2) := by
    intro t
    field_simp
    ring
  constructor
  · rw [← intervalIntegral.integral_mul_const, ← intervalIntegral.integral_mul_const, ← intervalIntegral.integral_add (Continuous.intervalIntegrable (by fun_prop) _ _) (Continuous.intervalIntegrable (by fun_prop) _ _)]
    refine intervalIntegral.integral_congr fun t _ => ?_
    rw [ea, Real.sin_add]
    ring
  · rw [← intervalIntegral.integral_mul_const, ← intervalIntegral.integral_mul_const, ← intervalIntegral.integral_sub (Continuous.intervalIntegrable (by fun_prop) _ _) (Continuous.intervalIntegrable (by fun_prop) _ _)]
    refine intervalIntegral.integral_congr fun t _ => ?_
    rw [ea, Real.cos_add]

/-- C122, `zFresnelIntgGen` with a quadratic term: the error is at most twice the sum of the errors of the scaled integrals at the two ends. -/
theorem zFresnelIntgGen_error (tol : ℝ) (ht : 0 ≤ tol) (fr : ℝ → ℝ × ℝ × Bool) (x f0 f1 f2 e1 e2 : ℝ) (hf : tol < |f2|)
    (h1 : |(zFresnelIntgScale tol fr (x + 0.5*f1/f2) f2).1 - fresS f2 (x + 0.5*f1/f2)| ≤ e1 ∧ |(zFresnelIntgScale tol fr (x + 0.5*f1/f2) f2).2.1 - fresC f2 (x + 0.5*f1/f2)| ≤ e1)
    (h2 : |(zFresnelIntgScale tol fr (0.5*f1/f2) f2).1 - fresS f2 (0.5*f1/f2)| ≤ e2 ∧ |(zFresnelIntgScale tol fr (0.5*f1/f2) f2).2.1 - fresC f2 (0.5*f1/f2)| ≤ e2) :
    |(zFresnelIntgGen tol fr x f0 f1 f2).1 - ∫ t in (0:ℝ)..x, Real.sin (f0 + f1*t + f2*t^2)| ≤ 2 * (e1 + e2) ∧
    |(zFresnelIntgGen tol fr x f0 f1 f2).2.1 - ∫ t in (0:ℝ)..x, Real.cos (f0 + f1*t + f2*t^2)| ≤ 2 * (e1 + e2) := by
  have hf0 : f2 ≠ 0 := fun h0 => by rw [h0, abs_zero] at hf; linarith
  obtain ⟨p1, p2⟩ := fres_phase x f0 f1 f2 hf0
  unfold zFresnelIntgGen
  rw [if_neg (not_le.2 hf), p1, p2]
  dsimp only
  generalize zFresnelIntgScale tol fr (x + 0.5*f1/f2) f2 = p at h1 ⊢
  generalize zFresnelIntgScale tol fr (0.5*f1/f2) f2 = q at h2 ⊢
  generalize fresS f2 (x + 0.5*f1/f2) = a1 at h1 ⊢
  generalize fresC f2 (x + 0.5*f1/f2) = b1 at h1 ⊢
  generalize fresS f2 (0.5*f1/f2) = a2 at h2 ⊢
  generalize fresC f2 (0.5*f1/f2) = b2 at h2 ⊢
  have hs := Real.abs_sin_le_one (f0 - 0.25*f1*f1/f2)
  have hc := Real.abs_cos_le_one (f0 - 0.25*f1*f1/f2)
  generalize Real.sin (f0 - 0.25*f1*f1/f2) = u at hs ⊢
  generalize Real.cos (f0 - 0.25*f1*f1/f2) = v at hc ⊢
  have hS : |(p.1 - q.1) - (a1 - a2)| ≤ e1 + e2 := by
    rw [show (p.1 - q.1) - (a1 - a2) = (p.1 - a1) - (q.1 - a2) by ring]
    exact (abs_sub _ _).trans (add_le_add h1.1 h2.1)
  have hC : |(p.2.1 - q.2.1) - (b1 - b2)| ≤ e1 + e2 := by
    rw [show (p.2.1 - q.2.1) - (b1 - b2) = (p.2.1 - b1) - (q.2.1 - b2) by ring]
    exact (abs_sub _ _).trans (add_le_add h1.2 h2.2)
  have he : 0 ≤ e1 + e2 := (abs_nonneg _).trans hS
  have m : ∀ y w : ℝ, |y| ≤ e1 + e2 → |w| ≤ 1 → |y * w| ≤ e1 + e2 := by
    intro y w hy hw
    rw [abs_mul]
    nlinarith [abs_nonneg y, abs_nonneg w]
  constructor
  · rw [show (p.2.1 - q.2.1) * u + (p.1 - q.1) * v - ((b1 - b2) * u + (a1 - a2) * v) = ((p.2.1 - q.2.1) - (b1 - b2)) * u + ((p.1 - q.1) - (a1 - a2)) * v by ring]
    refine (abs_add_le _ _).trans ?_
    linarith [m _ u hC hs, m _ v hS hc]
  · rw [show (p.2.1 - q.2.1) * v - (p.1 - q.1) * u - ((b1 - b2) * v - (a1 - a2) * u) = ((p.2.1 - q.2.1) - (b1 - b2)) * v - ((p.1 - q.1) - (a1 - a2)) * u by ring]
    refine (abs_sub _ _).trans ?_
    linarith [m _ v hC hc, m _ u hS hs]

theorem sin_lip (a b : ℝ) : |Real.sin a - Real.sin b| ≤ |a - b| ∧ |Real.cos a - Real.cos b| ≤ |a - b| := by
  constructor
  · have := Real.lipschitzWith_sin.dist_le_mul a b
    simpa [Real.dist_eq] using this
  · have := Real.lipschitzWith_cos.dist_le_mul a b
    simpa [Real.dist_eq] using this

/-- The integral of a function that differs little. -/
theorem intg_close (x a b : ℝ) (g h : ℝ → ℝ) (hg : Continuous g) (hh : Continuous h) (hd : ∀ t, |g t - h t| ≤ a * |t| + b * t^2) :
    |(∫ t in (0:ℝ)..x, g t) - ∫ t in (0:ℝ)..x, h t| ≤ a * x^2 / 2 + b * |x|^3 / 3 := by
  have pos : ∀ (g h : ℝ → ℝ), Continuous g → Continuous h → (∀ t, |g t - h t| ≤ a * |t| + b * t^2) → ∀ y, 0 ≤ y → |(∫ t in (0:ℝ)..y, g t) - ∫ t in (0:ℝ)..y, h t| ≤ a * y^2 / 2 + b * y^3 / 3 := by
    intro g h hg hh hd y hy
    rw [← intervalIntegral.integral_sub (hg.intervalIntegrable _ _) (hh.intervalIntegrable _ _)]
    have := intervalIntegral.norm_integral_le_of_norm_le (μ := volume) (f := fun t => g t - h t) (g := fun t => a * t + b * t^2) hy (Filter.Eventually.of_forall fun t ht => by
      have := hd t
      rw [abs_of_pos ht.1] at this
      exact this) (Continuous.intervalIntegrable (by fun_prop) _ _)
    refine this.trans (le_of_eq ?_)
    rw [intervalIntegral.integral_add (Continuous.intervalIntegrable (by fun_prop) _ _) (Continuous.intervalIntegrable (by fun_prop) _ _), intervalIntegral.integral_const_mul, intervalIntegral.integral_const_mul,
      integral_pow, integral_id]
    push_cast
    ring
  rcases le_total 0 x with hx | hx
  · rw [abs_of_nonneg hx]
    exact pos g h hg hh hd x hx
  · have := pos (fun t => g (-t)) (fun t => h (-t)) (hg.comp continuous_neg) (hh.comp continuous_neg) (fun t => by have := hd (-t); rwa [abs_neg, neg_sq] at this) (-x) (by linarith)
    rw [intervalIntegral.integral_comp_neg (fun t => g t), intervalIntegral.integral_comp_neg (fun t => h t), neg_neg, neg_zero] at this
    rw [abs_of_nonpos hx, abs_sub_comm, intervalIntegral.integral_symm x 0, intervalIntegral.integral_symm x 0]
    rw [neg_sq] at this
    convert this using 2
    ring

/-- C122, `zFresnelIntgGen` without a quadratic term: the coefficients in the tolerance are taken for zero, and otherwise the integrals are exact. -/
theorem zFresnelIntgGen_linear (tol : ℝ) (ht : 0 ≤ tol) (fr : ℝ → ℝ × ℝ × Bool) (x f0 f1 f2 : ℝ) (hf : |f2| ≤ tol) :
    |(zFresnelIntgGen tol fr x f0 f1 f2).1 - ∫ t in (0:ℝ)..x, Real.sin (f0 + f1*t + f2*t^2)| ≤ (if |f1| ≤ tol then tol else 0) * x^2/2 + tol * |x|^3/3 ∧
    |(zFresnelIntgGen tol fr x f0 f1 f2).2.1 - ∫ t in (0:ℝ)..x, Real.cos (f0 + f1*t + f2*t^2)| ≤ (if |f1| ≤ tol then tol else 0) * x^2/2 + tol * |x|^3/3 ∧
    (zFresnelIntgGen tol fr x f0 f1 f2).2.2 = true := by
  unfold zFresnelIntgGen
  rw [if_pos hf]
  dsimp only
  have hb : ∀ t : ℝ, |f2 * t^2| ≤ tol * t^2 := fun t => by rw [abs_mul, abs_of_nonneg (sq_nonneg t)]; exact mul_le_mul_of_nonneg_right hf (sq_nonneg t)
  by_cases h1 : |f1| ≤ tol
  · rw [if_pos h1, if_pos h1]
    have hd : ∀ t : ℝ, |f0 - (f0 + f1*t + f2*t^2)| ≤ tol * |t| + tol * t^2 := by
      intro t
      rw [show f0 - (f0 + f1*t + f2*t^2) = -(f1*t + f2*t^2) by ring, abs_neg]
      refine (abs_add_le _ _).trans (add_le_add ?_ (hb t))
      rw [abs_mul]
      exact mul_le_mul_of_nonneg_right h1 (abs_nonneg t)
    have iS := intg_close x tol tol (fun _ => Real.sin f0) (fun t => Real.sin (f0 + f1*t + f2*t^2)) (by fun_prop) (by fun_prop) (fun t => ((sin_lip _ _).1).trans (hd t))
    have iC := intg_close x tol tol (fun _ => Real.cos f0) (fun t => Real.cos (f0 + f1*t + f2*t^2)) (by fun_prop) (by fun_prop) (fun t => ((sin_lip _ _).2).trans (hd t))
    rw [intervalIntegral.integral_const, sub_zero, smul_eq_mul] at iS iC
    exact ⟨iS, iC, rfl⟩
  · rw [if_neg h1, if_neg h1]
    have hf1 : f1 ≠ 0 := fun h0 => h1 (by rw [h0, abs_zero]; exact ht)
    have hd : ∀ t : ℝ, |(f0 + f1*t) - (f0 + f1*t + f2*t^2)| ≤ 0 * |t| + tol * t^2 := by
      intro t
      rw [show (f0 + f1*t) - (f0 + f1*t + f2*t^2) = -(f2*t^2) by ring, abs_neg, zero_mul, zero_add]
      exact hb t
    have iS := intg_close x 0 tol (fun t => Real.sin (f0 + f1*t)) (fun t => Real.sin (f0 + f1*t + f2*t^2)) (by fun_prop) (by fun_prop) (fun t => ((sin_lip _ _).1).trans (hd t))
    have iC := intg_close x 0 tol (fun t => Real.cos (f0 + f1*t)) (fun t => Real.cos (f0 + f1*t + f2*t^2)) (by fun_prop) (by fun_prop) (fun t => ((sin_lip _ _).2).trans (hd t))
    have eS := intervalIntegral.integral_comp_add_mul (a := 0) (b := x) (fun t : ℝ => Real.sin t) hf1 f0
    have eC := intervalIntegral.integral_comp_add_mul (a := 0) (b := x) (fun t : ℝ => Real.cos t) hf1 f0
    rw [mul_zero, add_zero, integral_sin, smul_eq_mul] at eS
    rw [mul_zero, add_zero, integral_cos, smul_eq_mul] at eC
    rw [eS] at iS
    rw [eC] at iC
    refine ⟨?_, ?_, rfl⟩
    · convert iS using 3; field_simp; ring
    · convert iC using 3; field_simp

/-- The integrals are those meant, and not zero: for x = 1 they are at least 1/5, and the routine returns them. -/
example : 1/5 ≤ fresC (Real.pi/2) 1 ∧ ∃ s c, zFresnelIntgPI_2 (1/10^12) 10000 1 = (s, c, true) ∧ |c - fresC (Real.pi/2) 1| ≤ 1/10^12 := by
  refine ⟨by simpa using fresC_lower 1 (by norm_num) (by norm_num), ?_⟩
  obtain ⟨s, c, e, -, h⟩ := zFresnelIntgPI_2_series 10000 (by norm_num) 1 (by norm_num)
  rw [abs_one, mul_one] at h
  exact ⟨s, c, e, h⟩

/-- An instance with a negative factor. -/
example : ∃ s c, zFresnelIntgScale (1/10^12) (zFresnelIntgPI_2 (1/10^12) 10000) 1 (-2) = (s, c, true) ∧ |s - fresS (-2) 1| ≤ 1/10^12 := by
  obtain ⟨s, c, e, h, -⟩ := zFresnelIntgScale_series 10000 (by norm_num) 1 (-2) (by norm_num) (by have := Real.pi_gt_three; norm_num; linarith)
  rw [abs_one, mul_one] at h
  exact ⟨s, c, e, h⟩

end Zm.SF
