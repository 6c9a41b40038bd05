import Verif.Model.SF
import Mathlib.Analysis.SpecialFunctions.Trigonometric.Deriv
import Mathlib.Analysis.SpecialFunctions.Trigonometric.Inverse
import Mathlib.Topology.Order.MonotoneConvergence
import Mathlib.Analysis.SpecificLimits.Basic
import Mathlib.Tactic.LinearCombination
import Mathlib.Analysis.Real.Pi.Bounds

/-!
# Fourier series (C124), oscillators (C125, C126), successive substitution (C127)
-/
set_option linter.unusedSectionVars false

namespace Zm.SF
open Zm Finset Filter Topology

/-! ## Fourier series -/

/-- The finite Fourier series. -/
noncomputable def fourier (n : Nat) (sc cc : Nat → ℝ) (t : ℝ) : ℝ := ∑ i ∈ range n, (sc i * Real.sin (i*t) + cc i * Real.cos (i*t))

/-- C124, `zFourierVal` is the series. -/
theorem zFourierVal_spec (n : Nat) (sc cc : Nat → ℝ) (t : ℝ) : zFourierVal n sc cc t = fourier n sc cc t := by
  unfold zFourierVal fourier
  rw [forUp_add 0 n _ 0 (Nat.zero_le _), zero_add, ← range_eq_Ico]

theorem zFourierVel_sum (n : Nat) (sc cc : Nat → ℝ) (t : ℝ) : zFourierVel n sc cc t = ∑ i ∈ range n, i * (sc i * Real.cos (i*t) - cc i * Real.sin (i*t)) := by
  unfold zFourierVel
  rw [forUp_add 0 n _ 0 (Nat.zero_le _), zero_add, ← range_eq_Ico]

theorem zFourierAcc_sum (n : Nat) (sc cc : Nat → ℝ) (t : ℝ) : zFourierAcc n sc cc t = -∑ i ∈ range n, i*i * (sc i * Real.sin (i*t) + cc i * Real.cos (i*t)) := by
  unfold zFourierAcc
  rw [forUp_sub 0 n _ 0 (Nat.zero_le _), zero_sub, ← range_eq_Ico]

/-- C124, `zFourierVel` is the derivative of the series. -/
theorem zFourierVel_deriv (n : Nat) (sc cc : Nat → ℝ) (t : ℝ) : HasDerivAt (fourier n sc cc) (zFourierVel n sc cc t) t := by
  rw [zFourierVel_sum]
  have h : ∀ i ∈ range n, HasDerivAt (fun t : ℝ => sc i * Real.sin (i*t) + cc i * Real.cos (i*t)) (i * (sc i * Real.cos (i*t) - cc i * Real.sin (i*t))) t := by
    intro i _
    have h0 : HasDerivAt (fun t : ℝ => (i:ℝ) * t) (i:ℝ) t := by simpa using (hasDerivAt_id t).const_mul (i:ℝ)
    refine ((h0.sin.const_mul (sc i)).add (h0.cos.const_mul (cc i))).congr_deriv ?_
    ring
  exact HasDerivAt.fun_sum h

/-- C124, `zFourierAcc` is the second derivative of the series. -/
theorem zFourierAcc_deriv (n : Nat) (sc cc : Nat → ℝ) (t : ℝ) : HasDerivAt (zFourierVel n sc cc) (zFourierAcc n sc cc t) t := by
  rw [zFourierAcc_sum, ← sum_neg_distrib, show zFourierVel n sc cc = fun t => ∑ i ∈ range n, i * (sc i * Real.cos (i*t) - cc i * Real.sin (i*t)) from funext fun t => zFourierVel_sum n sc cc t]
  have h : ∀ i ∈ range n, HasDerivAt (fun t : ℝ => i * (sc i * Real.cos (i*t) - cc i * Real.sin (i*t))) (-(i*i * (sc i * Real.sin (i*t) + cc i * Real.cos (i*t)))) t := by
    intro i _
    have h0 : HasDerivAt (fun t : ℝ => (i:ℝ) * t) (i:ℝ) t := by simpa using (hasDerivAt_id t).const_mul (i:ℝ)
    refine (((h0.cos.const_mul (sc i)).sub (h0.sin.const_mul (cc i))).const_mul (i:ℝ)).congr_deriv ?_
    ring
  exact HasDerivAt.fun_sum h

/-- C124, the values, velocities and accelerations have the period 2 pi. -/
theorem zFourier_periodic (n : Nat) (sc cc : Nat → ℝ) (t : ℝ) : zFourierVal n sc cc (t + 2 * Real.pi) = zFourierVal n sc cc t ∧
    zFourierVel n sc cc (t + 2 * Real.pi) = zFourierVel n sc cc t ∧ zFourierAcc n sc cc (t + 2 * Real.pi) = zFourierAcc n sc cc t := by
  have e : ∀ i : Nat, Real.sin (i * (t + 2 * Real.pi)) = Real.sin (i*t) ∧ Real.cos (i * (t + 2 * Real.pi)) = Real.cos (i*t) := by
    intro i
    rw [mul_add, Real.sin_add_nat_mul_two_pi, Real.cos_add_nat_mul_two_pi]
    exact ⟨rfl, rfl⟩
  rw [zFourierVal_spec, zFourierVal_spec, fourier, fourier, zFourierVel_sum, zFourierVel_sum, zFourierAcc_sum, zFourierAcc_sum]
  simp only [(e _).1, (e _).2, and_self]

/-- C124, the setters change the coefficient asked for and no other, refuse indices out of range, and never touch the value by the sine term of the constant. -/
theorem zFourierSet_spec (n : Nat) (sc cc : Nat → ℝ) (i : Int) (c : ℝ) (j : Nat) :
    zFourierSetSinCoeff n sc i c j = (if (j:Int) = i ∧ j < n then (if j = 0 then 0 else c) else sc j) ∧
    zFourierSetCosCoeff n cc i c j = (if (j:Int) = i ∧ j < n then c else cc j) := by
  unfold zFourierSetSinCoeff zFourierSetCosCoeff set1
  by_cases h : 0 ≤ i ∧ i < n
  · rw [if_pos h, if_pos h]
    have hc : (j = i.toNat) ↔ ((j:Int) = i ∧ j < n) := by omega
    constructor
    · refine (if_congr hc rfl rfl).trans ?_
      by_cases hj : (j:Int) = i ∧ j < n
      · rw [if_pos hj, if_pos hj]
        exact if_congr (by omega) rfl rfl
      · rw [if_neg hj, if_neg hj]
    · exact if_congr hc rfl rfl
  · rw [if_neg h, if_neg h, if_neg (by omega), if_neg (by omega)]
    exact ⟨rfl, rfl⟩

/-- sin t + 2 cos 2t, at 0 with value 2 and velocity 1. -/
example : zFourierVal 3 (fun i => if i = 1 then 1 else 0) (fun i => if i = 2 then 2 else 0) 0 = 2 ∧ zFourierVel 3 (fun i => if i = 1 then 1 else 0) (fun i => if i = 2 then 2 else 0) 0 = 1 := by
  rw [zFourierVal_spec, fourier, zFourierVel_sum]
  norm_num [sum_range_succ]

/-! ## Van der Pol's oscillator -/

/-- A run: the inputs and the lengths of the steps. -/
noncomputable def VDP.run (o : VDP) : List (ℝ × ℝ) → VDP
  | [] => o
  | p :: l => (o.update p.1 p.2).run l

/-- C125, creation refuses a term in the tolerance, and gives every other oscillator the angular frequency 2 pi / t. -/
theorem zOscCreateVDP_spec (tol t damp amp : ℝ) : (|t| ≤ tol → zOscCreateVDP tol t damp amp = .fail) ∧
    (tol < |t| → ∃ o, zOscCreateVDP tol t damp amp = .ok o ∧ o.omega = 2 * Real.pi / t ∧ o.eps = damp ∧ 2 * o.amp = amp ∧ o.output = 0) := by
  unfold zOscCreateVDP
  refine ⟨fun h => if_pos h, fun h => ⟨_, if_neg (not_le.2 h), rfl, rfl, ?_, ?_⟩⟩
  · norm_num
    ring
  · simp [VDP.output]

/-- C125, `zOscInit` of an oscillator with an amplitude: the output is the initial value, and its rate the initial velocity. -/
theorem VDP.init_partial (o : VDP) (h : o.amp ≠ 0) (x0 v0 : ℝ) : ∃ o', o.init x0 v0 = .ok o' ∧ o'.output = x0 ∧ o'.amp * o'.v = v0 ∧ o'.omega = o.omega ∧ o'.eps = o.eps ∧ o'.amp = o.amp := by
  unfold VDP.init
  rw [if_neg h]
  refine ⟨_, rfl, ?_, ?_, rfl, rfl, rfl⟩
  · exact mul_div_cancel₀ _ h
  · exact mul_div_cancel₀ _ h

/-- C125 is false of an amplitude of zero, which is not refused: the initial values are divided by zero. -/
theorem VDP.init_violated (tol t damp x0 v0 : ℝ) (h : tol < |t|) : ∃ o, zOscCreateVDP tol t damp 0 = .ok o ∧ o.init x0 v0 = .ub :=
  ⟨_, if_neg (not_le.2 h), if_pos (zero_mul _)⟩

/-- C125, the parameters never change, and each step is one of the semi-implicit Euler method for x'' = -w (e (x^2 - 1) x' + w x) - u. -/
theorem VDP.update_spec (o : VDP) (u dt : ℝ) : (o.update u dt).omega = o.omega ∧ (o.update u dt).eps = o.eps ∧ (o.update u dt).amp = o.amp ∧
    (o.update u dt).x = o.x + (o.update u dt).v * dt ∧ (o.update u dt).v = o.v + (-(o.omega * (o.eps * (o.x^2 - 1) * o.v + o.omega * o.x)) - u) * dt := by
  refine ⟨rfl, rfl, rfl, rfl, ?_⟩
  simp only [VDP.update]
  ring

/-- The quadratic form that the steps conserve. -/
def VDP.energy (o : VDP) (dt : ℝ) : ℝ := o.v^2 + o.omega^2 * o.x^2 - o.omega^2 * dt * o.x * o.v

/-- C125, without damping and input a quadratic form is conserved by every number of steps of the same length. -/
theorem VDP.energy_run (o : VDP) (he : o.eps = 0) (dt : ℝ) (n : Nat) : (o.run (List.replicate n (0, dt))).energy dt = o.energy dt ∧ (o.run (List.replicate n (0, dt))).omega = o.omega ∧
    (o.run (List.replicate n (0, dt))).amp = o.amp := by
  induction n generalizing o with
  | zero => exact ⟨rfl, rfl, rfl⟩
  | succ n ih =>
    rw [List.replicate_succ, VDP.run]
    obtain ⟨h1, h2, h3⟩ := ih (o.update 0 dt) he
    refine ⟨h1.trans ?_, h2, h3⟩
    simp only [VDP.energy, VDP.update, he]
    ring

/-- C125, hence the output stays bounded for ever when the step is shorter than 2 / w: it does not exceed the amplitude of the conserved form. -/
theorem VDP.bounded (o : VDP) (he : o.eps = 0) (dt : ℝ) (hdt : (o.omega * dt)^2 < 4) (n : Nat) :
    (1 - (o.omega * dt)^2 / 4) * o.omega^2 * (o.run (List.replicate n (0, dt))).output^2 ≤ o.amp^2 * o.energy dt := by
  obtain ⟨h1, h2, h3⟩ := o.energy_run he dt n
  rw [← h1, VDP.output, h3]
  generalize o.run (List.replicate n (0, dt)) = p at h2
  rw [VDP.energy, h2]
  nlinarith [mul_nonneg (sq_nonneg o.amp) (sq_nonneg (p.v - o.omega^2 * dt * p.x / 2))]

/-- A run that moves: 3 steps from (1, 0) with w = 1 and steps of length 1 lead to the opposite point. -/
example : ((⟨1, 0, 1, 1, 0⟩ : VDP).run (List.replicate 3 (0, 1))).output = -1 ∧ (⟨1, 0, 1, 1, 0⟩ : VDP).energy 1 = 1 := by
  simp only [List.replicate, VDP.run, VDP.update, VDP.output, VDP.energy]
  norm_num

/-! ## Kuramoto's oscillator -/

/-- A run: the inputs and the lengths of the steps. -/
noncomputable def Kura.run (o : Kura) : List (ℝ × ℝ) → Kura
  | [] => o
  | p :: l => (o.update p.1 p.2).run l

/-- C126, a new oscillator has the parameters asked for, and `zOscInit` sets the phase. -/
theorem Kura.init_spec (wn ke po p0 w0 : ℝ) : ((zOscCreateKura wn ke po).init p0 w0).output = p0 ∧ ((zOscCreateKura wn ke po).init p0 w0).wn = wn ∧
    ((zOscCreateKura wn ke po).init p0 w0).ke = ke ∧ ((zOscCreateKura wn ke po).init p0 w0).po = po ∧ (zOscCreateKura wn ke po).output = 0 := ⟨rfl, rfl, rfl, rfl, rfl⟩

/-- C126, for every sequence of inputs and steps the phase keeps to that of the natural frequency up to the entrainment gain times the time. -/
theorem Kura.run_bound (o : Kura) (l : List (ℝ × ℝ)) : |(o.run l).output - o.output - o.wn * (l.map Prod.snd).sum| ≤ |o.ke| * (l.map fun p => |p.2|).sum ∧
    (o.run l).wn = o.wn ∧ (o.run l).ke = o.ke ∧ (o.run l).po = o.po := by
  induction l generalizing o with
  | nil => simp [Kura.run]
  | cons p l ih =>
    obtain ⟨h1, h2⟩ := ih (o.update p.1 p.2)
    refine ⟨?_, h2⟩
    rw [Kura.run, List.map_cons, List.map_cons, List.sum_cons, List.sum_cons]
    have e1 : (o.update p.1 p.2).wn = o.wn := rfl
    have e2 : (o.update p.1 p.2).ke = o.ke := rfl
    have e3 : (o.update p.1 p.2).output = o.output + (o.wn + o.ke * Real.sin (p.1 - o.p - o.po)) * p.2 := rfl
    rw [e1, e2, e3] at h1
    have h3 : |o.ke * Real.sin (p.1 - o.p - o.po) * p.2| ≤ |o.ke| * |p.2| := by
      rw [abs_mul, abs_mul]
      refine mul_le_mul_of_nonneg_right ?_ (abs_nonneg _)
      exact mul_le_of_le_one_right (abs_nonneg _) (Real.abs_sin_le_one _)
    rw [mul_add]
    have a := abs_le.1 h1
    have b := abs_le.1 h3
    rw [abs_le]
    constructor <;> linarith

/-- The inputs of frequency `w` that begin with the phase `u0`. -/
def tone (u0 w dt : ℝ) (n : Nat) : List (ℝ × ℝ) := (List.range n).map fun k : Nat => (u0 + w * dt * (k:ℝ), dt)

theorem Kura.run_append (o : Kura) (a b : List (ℝ × ℝ)) : o.run (a ++ b) = (o.run a).run b := by
  induction a generalizing o with
  | nil => rfl
  | cons p a ih => exact ih _

/-- The lag behind the input. -/
noncomputable def Kura.lag (o : Kura) (u0 w dt : ℝ) (n : Nat) : ℝ := u0 + w * dt * n - (o.run (tone u0 w dt n)).output - o.po

theorem Kura.lag_succ (o : Kura) (u0 w dt : ℝ) (n : Nat) : o.lag u0 w dt (n+1) = o.lag u0 w dt n + dt * (w - o.wn - o.ke * Real.sin (o.lag u0 w dt n)) := by
  obtain ⟨-, h1, h2, h3⟩ := o.run_bound (tone u0 w dt n)
  have e : tone u0 w dt (n+1) = tone u0 w dt n ++ [(u0 + w * dt * n, dt)] := by
    unfold tone
    rw [List.range_succ, List.map_append]
    rfl
  unfold Kura.lag
  rw [e, Kura.run_append]
  simp only [Kura.run, Kura.update, Kura.output]
  rw [h1, h2, h3]
  push_cast
  ring

/-- Signs of the sine about an angle in (-pi/2, pi/2). -/
theorem sin_above (p d : ℝ) (hp : |p| < Real.pi/2) (h1 : p < d) (h2 : d < Real.pi - p) : Real.sin p < Real.sin d := by
  have hp := abs_lt.1 hp
  have e := Real.sin_sub_sin d p
  have a1 : 0 < Real.cos ((d+p)/2) := Real.cos_pos_of_mem_Ioo ⟨by linarith [hp.1], by linarith⟩
  have a2 : 0 < Real.sin ((d-p)/2) := Real.sin_pos_of_pos_of_lt_pi (by linarith) (by linarith [hp.1])
  have := mul_pos (mul_pos (by norm_num : (0:ℝ) < 2) a2) a1
  linarith

theorem sin_below (p d : ℝ) (hp : |p| < Real.pi/2) (h1 : d < p) (h2 : -Real.pi - p < d) : Real.sin d < Real.sin p := by
  have := sin_above (-p) (-d) (by rwa [abs_neg]) (by linarith) (by linarith)
  rw [Real.sin_neg, Real.sin_neg] at this
  linarith

/-- The lag moves towards the lag of equilibrium and does not pass it. -/
theorem lag_step (k p d : ℝ) (hk : 0 < k) (hk1 : k ≤ 1) (hp : |p| < Real.pi/2) :
    (p ≤ d → d < Real.pi - p → p ≤ d + k * (Real.sin p - Real.sin d) ∧ d + k * (Real.sin p - Real.sin d) ≤ d) ∧
    (d ≤ p → -Real.pi - p < d → d ≤ d + k * (Real.sin p - Real.sin d) ∧ d + k * (Real.sin p - Real.sin d) ≤ p) := by
  have lip : ∀ a b : ℝ, |Real.sin a - Real.sin b| ≤ |a - b| := by
    intro a b
    have := Real.lipschitzWith_sin.dist_le_mul a b
    simpa [Real.dist_eq] using this
  constructor
  · intro h1 h2
    have hs : Real.sin p ≤ Real.sin d := by
      rcases h1.eq_or_lt with h | h
      · rw [h]
      · exact (sin_above p d hp h h2).le
    have := lip d p
    rw [abs_of_nonneg (by linarith), abs_of_nonneg (by linarith)] at this
    constructor <;> nlinarith
  · intro h1 h2
    have hs : Real.sin d ≤ Real.sin p := by
      rcases h1.eq_or_lt with h | h
      · rw [h]
      · exact (sin_below p d hp h h2).le
    have := lip p d
    rw [abs_of_nonneg (by linarith), abs_of_nonneg (by linarith)] at this
    constructor <;> nlinarith

theorem lag_tendsto (k p : ℝ) (hk : 0 < k) (hk1 : k ≤ 1) (hp : |p| < Real.pi/2) (d : Nat → ℝ) (hd : ∀ n, d (n+1) = d n + k * (Real.sin p - Real.sin (d n)))
    (h0 : -Real.pi - p < d 0) (h1 : d 0 < Real.pi - p) : Tendsto d atTop (𝓝 p) := by
  have hpp := abs_lt.1 hp
  have lim_sin : ∀ L, Tendsto d atTop (𝓝 L) → Real.sin p = Real.sin L := by
    intro L hL
    have a := hL.comp (tendsto_add_atTop_nat 1)
    have b : Tendsto (fun n => d n + k * (Real.sin p - Real.sin (d n))) atTop (𝓝 (L + k * (Real.sin p - Real.sin L))) :=
      hL.add (((tendsto_const_nhds.sub ((Real.continuous_sin.tendsto L).comp hL))).const_mul k)
    have c : (fun n => d n + k * (Real.sin p - Real.sin (d n))) = d ∘ fun n => n + 1 := funext fun n => (hd n).symm
    rw [c] at b
    have := tendsto_nhds_unique a b
    have : k * (Real.sin p - Real.sin L) = 0 := by linarith
    rcases mul_eq_zero.1 this with h | h <;> linarith
  rcases le_total p (d 0) with hle | hle
  · have inv : ∀ n, p ≤ d n ∧ d n ≤ d 0 := by
      intro n
      induction n with
      | zero => exact ⟨hle, le_refl _⟩
      | succ n ih =>
        have := (lag_step k p (d n) hk hk1 hp).1 ih.1 (by linarith)
        rw [← hd n] at this
        exact ⟨this.1, by linarith⟩
    have anti : Antitone d := antitone_nat_of_succ_le fun n => by
      have := (lag_step k p (d n) hk hk1 hp).1 (inv n).1 (by linarith [(inv n).2])
      rw [← hd n] at this
      exact this.2
    have hL := tendsto_atTop_ciInf anti ⟨p, by rintro _ ⟨n, rfl⟩; exact (inv n).1⟩
    generalize (⨅ i, d i) = L at hL
    have l1 : p ≤ L := ge_of_tendsto' hL fun n => (inv n).1
    have l2 : L ≤ d 0 := le_of_tendsto' hL fun n => (inv n).2
    have hs := lim_sin L hL
    rcases l1.eq_or_lt with h | h
    · rw [h]; exact hL
    · exact absurd hs (sin_above p L hp h (by linarith)).ne
  · have inv : ∀ n, d n ≤ p ∧ d 0 ≤ d n := by
      intro n
      induction n with
      | zero => exact ⟨hle, le_refl _⟩
      | succ n ih =>
        have := (lag_step k p (d n) hk hk1 hp).2 ih.1 (by linarith)
        rw [← hd n] at this
        exact ⟨this.2, by linarith⟩
    have mono : Monotone d := monotone_nat_of_le_succ fun n => by
      have := (lag_step k p (d n) hk hk1 hp).2 (inv n).1 (by linarith [(inv n).2])
      rw [← hd n] at this
      exact this.1
    have hL := tendsto_atTop_ciSup mono ⟨p, by rintro _ ⟨n, rfl⟩; exact (inv n).1⟩
    generalize (⨆ i, d i) = L at hL
    have l1 : L ≤ p := le_of_tendsto' hL fun n => (inv n).1
    have l2 : d 0 ≤ L := ge_of_tendsto' hL fun n => (inv n).2
    have hs := lim_sin L hL
    rcases l1.eq_or_lt with h | h
    · rw [← h]; exact hL
    · exact absurd hs (sin_below p L hp h (by linarith)).ne'

/-- C126, entrainment: when the frequency of the input differs from the natural one by less than the gain, the step is at most 1 / gain long, and the initial lag is in
the circle without the unstable point, then the lag tends to the angle whose sine is the quotient of the difference and the gain. -/
theorem Kura.entrained (o : Kura) (u0 w dt : ℝ) (hk : 0 < o.ke * dt) (hk1 : o.ke * dt ≤ 1) (hke : 0 < o.ke) (hw : |w - o.wn| < o.ke)
    (h0 : -Real.pi - Real.arcsin ((w - o.wn) / o.ke) < u0 - o.output - o.po) (h1 : u0 - o.output - o.po < Real.pi - Real.arcsin ((w - o.wn) / o.ke)) :
    Tendsto (o.lag u0 w dt) atTop (𝓝 (Real.arcsin ((w - o.wn) / o.ke))) := by
  have hq : |(w - o.wn) / o.ke| < 1 := by
    rw [abs_div, abs_of_pos hke, div_lt_one hke]
    exact hw
  have hq2 := abs_lt.1 hq
  have hp : |Real.arcsin ((w - o.wn) / o.ke)| < Real.pi/2 := by
    rw [abs_lt]
    exact ⟨Real.neg_pi_div_two_lt_arcsin.2 hq2.1, Real.arcsin_lt_pi_div_two.2 hq2.2⟩
  have e0 : o.lag u0 w dt 0 = u0 - o.output - o.po := by
    simp [Kura.lag, tone, Kura.run]
  refine lag_tendsto (o.ke * dt) _ hk hk1 hp (o.lag u0 w dt) ?_ (by rw [e0]; exact h0) (by rw [e0]; exact h1)
  intro n
  rw [Kura.lag_succ, Real.sin_arcsin hq2.1.le hq2.2.le]
  have : o.ke ≠ 0 := hke.ne'
  field_simp

/-- The hypotheses of the entrainment are met. -/
example : Tendsto ((zOscCreateKura 1 1 0).lag 1 (3/2) (1/2)) atTop (𝓝 (Real.arcsin (1/2))) := by
  have e : (3/2 - (1:ℝ)) / 1 = 1/2 := by norm_num
  have h1 : Real.arcsin (1/2) ≤ Real.pi/2 := Real.arcsin_le_pi_div_two _
  have h2 : 0 ≤ Real.arcsin (1/2) := Real.arcsin_nonneg.2 (by norm_num)
  have := (zOscCreateKura 1 1 0).entrained 1 (3/2) (1/2) (by norm_num [zOscCreateKura]) (by norm_num [zOscCreateKura]) (by norm_num [zOscCreateKura])
    (by norm_num [zOscCreateKura]) (by
      simp only [zOscCreateKura, Kura.output, e]
      have := Real.pi_gt_three
      linarith) (by
      simp only [zOscCreateKura, Kura.output, e]
      have := Real.pi_gt_three
      linarith)
  simp only [zOscCreateKura, e] at this ⊢
  exact this

/-! ## Successive substitution -/

/-- The iterates. -/
def iter (f : (Nat → ℝ) → Nat → ℝ) : Nat → (Nat → ℝ) → Nat → ℝ
  | 0, x => x
  | k+1, x => iter f k (f x)

theorem ssLoop_spec (tol : ℝ) (n : Nat) (f : (Nat → ℝ) → Nat → ℝ) (k : Nat) : ∀ x,
    (∃ j, j < k ∧ ssLoop tol n f k x = (iter f j x, true) ∧ (∀ i, i < n → |f (iter f j x) i - iter f j x i| ≤ tol) ∧ ∀ m, m < j → ¬ ∀ i, i < n → |f (iter f m x) i - iter f m x i| ≤ tol) ∨
    (ssLoop tol n f k x = (iter f k x, false) ∧ ∀ m, m < k → ¬ ∀ i, i < n → |f (iter f m x) i - iter f m x i| ≤ tol) := by
  induction k with
  | zero => exact fun x => Or.inr ⟨rfl, fun m hm => absurd hm (Nat.not_lt_zero m)⟩
  | succ k ih =>
    intro x
    rw [ssLoop]
    by_cases h : ∀ i, i < n → |f x i - x i| ≤ tol
    · rw [if_pos h]
      exact Or.inl ⟨0, Nat.succ_pos _, rfl, h, fun m hm => absurd hm (Nat.not_lt_zero m)⟩
    · rw [if_neg h]
      rcases ih (f x) with ⟨j, h1, h2, h3, h4⟩ | ⟨h1, h2⟩
      · refine Or.inl ⟨j+1, Nat.succ_lt_succ h1, h2, h3, fun m hm => ?_⟩
        cases m with
        | zero => exact h
        | succ m => exact h4 m (Nat.lt_of_succ_lt_succ hm)
      · refine Or.inr ⟨h1, fun m hm => ?_⟩
        cases m with
        | zero => exact h
        | succ m => exact h2 m (Nat.lt_of_succ_lt_succ hm)

/-- C127, `zSSSolve`: when it ends by its test, the equation holds up to the tolerance; otherwise it gives the warning, and the vector is the last iterate. -/
theorem zSSSolve_spec (tol : ℝ) (n : Nat) (f : (Nat → ℝ) → Nat → ℝ) (x : Nat → ℝ) (it : Int) :
    ((zSSSolve tol n f x it).2 = true → ∀ i, i < n → |f (zSSSolve tol n f x it).1 i - (zSSSolve tol n f x it).1 i| ≤ tol) ∧
    ((zSSSolve tol n f x it).2 = false → (zSSSolve tol n f x it).1 = iter f (if it ≤ 0 then 10000 else it.toNat) x) := by
  unfold zSSSolve
  rcases ssLoop_spec tol n f (if it ≤ 0 then 10000 else it.toNat) x with ⟨j, -, h2, h3, -⟩ | ⟨h1, -⟩
  · rw [h2]
    exact ⟨fun _ => h3, fun h => absurd h (by simp)⟩
  · rw [h1]
    exact ⟨fun h => absurd h (by simp), fun _ => rfl⟩

theorem iter_succ (f : (Nat → ℝ) → Nat → ℝ) (k : Nat) (x : Nat → ℝ) : iter f (k+1) x = f (iter f k x) := by
  induction k generalizing x with
  | zero => rfl
  | succ k ih => exact ih (f x)

/-- C127, contractions: with the factor q < 1 and enough turns the method ends by its test, and the vector is within tol / (1 - q) of every fixed point. -/
theorem zSSSolve_contraction (tol : ℝ) (n : Nat) (f : (Nat → ℝ) → Nat → ℝ) (q : ℝ) (hq0 : 0 ≤ q) (hq : q < 1)
    (hf : ∀ x y e, 0 ≤ e → (∀ i, i < n → |x i - y i| ≤ e) → ∀ i, i < n → |f x i - f y i| ≤ q * e) (x : Nat → ℝ) (e0 : ℝ) (he0 : 0 ≤ e0) (h0 : ∀ i, i < n → |f x i - x i| ≤ e0)
    (it : Int) (k : Nat) (hk : k < if it ≤ 0 then 10000 else it.toNat) (hqk : q ^ k * e0 ≤ tol) (s : Nat → ℝ) (hs : ∀ i, i < n → f s i = s i) :
    (zSSSolve tol n f x it).2 = true ∧ ∀ i, i < n → |(zSSSolve tol n f x it).1 i - s i| ≤ tol / (1 - q) := by
  have ht : 0 ≤ tol := le_trans (by positivity) hqk
  have hstep : ∀ m, ∀ i, i < n → |f (iter f m x) i - iter f m x i| ≤ q ^ m * e0 := by
    intro m
    induction m with
    | zero => intro i hi; rw [pow_zero, one_mul]; exact h0 i hi
    | succ m ih =>
      intro i hi
      have := hf (f (iter f m x)) (iter f m x) (q^m * e0) (by positivity) ih i hi
      rw [iter_succ, pow_succ]
      linarith
  have hend : (zSSSolve tol n f x it).2 = true := by
    unfold zSSSolve
    rcases ssLoop_spec tol n f (if it ≤ 0 then 10000 else it.toNat) x with ⟨j, -, h2, -⟩ | ⟨-, h2⟩
    · rw [h2]
    · exact absurd (fun i hi => (hstep k i hi).trans hqk) (h2 k hk)
  refine ⟨hend, ?_⟩
  have hr := (zSSSolve_spec tol n f x it).1 hend
  generalize (zSSSolve tol n f x it).1 = r at hr
  have hq1 : 0 < 1 - q := by linarith
  -- the largest distance
  intro i hi
  have hn : (range n).Nonempty := ⟨i, mem_range.2 hi⟩
  obtain ⟨j, hj, hm⟩ := exists_max_image (range n) (fun i => |r i - s i|) hn
  have hall : ∀ i, i < n → |r i - s i| ≤ |r j - s j| := fun i hi => hm i (mem_range.2 hi)
  have h1 := hf r s |r j - s j| (abs_nonneg _) hall j (mem_range.1 hj)
  rw [hs j (mem_range.1 hj)] at h1
  have h2 := hr j (mem_range.1 hj)
  have h3 : |r j - s j| ≤ tol + q * |r j - s j| := by
    have : r j - s j = -(f r j - r j) + (f r j - s j) := by ring
    calc |r j - s j| = |-(f r j - r j) + (f r j - s j)| := by rw [← this]
      _ ≤ |-(f r j - r j)| + |f r j - s j| := abs_add_le _ _
      _ ≤ _ := by rw [abs_neg]; linarith
  refine (hall i hi).trans ?_
  rw [le_div_iff₀ hq1]
  linarith

/-- A contraction of one variable, x = x/2 + 1, from zero. -/
example : (zSSSolve (1/10^12) 1 (fun x i => x i / 2 + 1) (fun _ => 0) 0).2 = true ∧ |(zSSSolve (1/10^12) 1 (fun x i => x i / 2 + 1) (fun _ => 0) 0).1 0 - 2| ≤ 2/10^12 := by
  have := zSSSolve_contraction (1/10^12) 1 (fun x i => x i / 2 + 1) (1/2) (by norm_num) (by norm_num)
    (fun x y e _ h i hi => by
      have := h i hi
      rw [show x i / 2 + 1 - (y i / 2 + 1) = 1/2 * (x i - y i) by ring, abs_mul, abs_of_pos (by norm_num : (0:ℝ) < 1/2)]
      linarith) (fun _ => 0) 1 (by norm_num) (by intro i _; norm_num) 0 50 (by norm_num) (by norm_num) (fun _ => 2) (by intro i _; norm_num)
  refine ⟨this.1, (this.2 0 (by norm_num)).trans (by norm_num)⟩

end Zm.SF
