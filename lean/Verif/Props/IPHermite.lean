import Verif.Props.IPSpline
import Mathlib.Analysis.Calculus.Deriv.MeanValue
import Mathlib.Analysis.Calculus.Deriv.Slope

/-! # PCHIP (C33) and Akima (C34) interpolation -/

set_option linter.unusedSectionVars false

namespace Zm.IP
open Zm

/-! ## PCHIP -/

/-- The slope of the data in section `i`. -/
noncomputable def secant (dt x : Nat → ℝ) (i : Nat) : ℝ := (x (i+1) - x i) / dt (i+1)

/-- The Fritsch–Carlson condition in section `i`: zero velocities in a flat section, otherwise the velocities
relative to the slope lie in the disc of radius 3. -/
def FCOk (tol : ℝ) (dt x va : Nat → ℝ) (i : Nat) : Prop :=
  (|secant dt x i| ≤ tol → va i = 0 ∧ va (i+1) = 0) ∧
  (tol < |secant dt x i| → (va i / secant dt x i)^2 + (va (i+1) / secant dt x i)^2 ≤ 9)

theorem FCOk_scale {tol : ℝ} {dt x va va' : Nat → ℝ} {i : Nat} (h : FCOk tol dt x va i)
    (h1 : ∃ s, 0 ≤ s ∧ s ≤ 1 ∧ va' i = s * va i) (h2 : ∃ s, 0 ≤ s ∧ s ≤ 1 ∧ va' (i+1) = s * va (i+1)) : FCOk tol dt x va' i := by
  obtain ⟨s, s0, s1, es⟩ := h1
  obtain ⟨r, r0, r1, er⟩ := h2
  refine ⟨fun ht => ?_, fun ht => ?_⟩
  · obtain ⟨a, b⟩ := h.1 ht
    rw [es, er, a, b]; simp
  · have := h.2 ht
    rw [es, er, mul_div_assoc, mul_div_assoc, mul_pow, mul_pow]
    have q1 : s^2 ≤ 1 := by nlinarith
    have q2 : r^2 ≤ 1 := by nlinarith
    have p1 := sq_nonneg (va i / secant dt x i)
    have p2 := sq_nonneg (va (i+1) / secant dt x i)
    nlinarith

/-- One pass of the modification loop. -/
noncomputable def pchipStep (tol : ℝ) (dt x : Nat → ℝ) (i : Nat) (va : Nat → ℝ) : Nat → ℝ :=
  let d := (x (i+1) - x i) / dt (i+1)
  if |d| ≤ tol then
    let va := set1 va i 0
    set1 va (i+1) 0
  else
    let a := va i / d
    let b := va (i+1) / d
    let l := Real.sqrt (a*a + b*b)
    if l ≥ 3 then
      let va := set1 va i (a * d * 3 / l)
      set1 va (i+1) (b * d * 3 / l)
    else va

theorem pchipStep_spec (tol : ℝ) (htol : 0 ≤ tol) (dt x va : Nat → ℝ) (i : Nat) :
    FCOk tol dt x (pchipStep tol dt x i va) i ∧ (∀ j, ∃ s, 0 ≤ s ∧ s ≤ 1 ∧ pchipStep tol dt x i va j = s * va j) ∧
      (∀ j, j ≠ i → j ≠ i + 1 → pchipStep tol dt x i va j = va j) := by
  have hd : secant dt x i = (x (i+1) - x i) / dt (i+1) := rfl
  unfold pchipStep FCOk
  simp only
  rw [← hd]
  by_cases h : |secant dt x i| ≤ tol
  · simp only [if_pos h]
    refine ⟨⟨fun _ => ?_, fun h' => absurd h (not_le.2 h')⟩, fun j => ?_, fun j h1 h2 => ?_⟩
    · rw [set1_ne _ _ (show i ≠ i + 1 by omega), set1_same, set1_same]; simp
    · by_cases h1 : j = i + 1
      · exact ⟨0, le_refl _, by norm_num, by rw [h1, set1_same]; ring⟩
      · by_cases h2 : j = i
        · exact ⟨0, le_refl _, by norm_num, by rw [set1_ne _ _ h1, h2, set1_same]; ring⟩
        · exact ⟨1, by norm_num, le_refl _, by rw [set1_ne _ _ h1, set1_ne _ _ h2]; ring⟩
    · rw [set1_ne _ _ h2, set1_ne _ _ h1]
  · simp only [if_neg h]
    have hne : secant dt x i ≠ 0 := by
      intro h0; rw [h0, abs_zero] at h; exact h htol
    generalize secant dt x i = d at *
    generalize hl : Real.sqrt (va i / d * (va i / d) + va (i+1) / d * (va (i+1) / d)) = l
    have hnn : 0 ≤ va i / d * (va i / d) + va (i+1) / d * (va (i+1) / d) := by nlinarith [mul_self_nonneg (va i / d), mul_self_nonneg (va (i+1) / d)]
    have hsq : l * l = va i / d * (va i / d) + va (i+1) / d * (va (i+1) / d) := by rw [← hl]; exact Real.mul_self_sqrt hnn
    have hl0 : 0 ≤ l := by rw [← hl]; exact Real.sqrt_nonneg _
    by_cases h3 : l ≥ 3
    · simp only [if_pos h3]
      have hlp : 0 < l := by linarith
      have hs1 : 3 / l ≤ 1 := by rw [div_le_one hlp]; exact h3
      have hs0 : 0 ≤ 3 / l := by positivity
      refine ⟨⟨fun h' => absurd h' h, fun _ => ?_⟩, fun j => ?_, fun j h1 h2 => ?_⟩
      · rw [set1_ne _ _ (show i ≠ i + 1 by omega), set1_same, set1_same]
        have e : (va i / d * d * 3 / l / d)^2 + (va (i+1) / d * d * 3 / l / d)^2 = 9 / (l*l) * (va i / d * (va i / d) + va (i+1) / d * (va (i+1) / d)) := by
          field_simp
          ring
        rw [e, ← hsq]
        have : 9 / (l * l) * (l * l) = 9 := by field_simp
        rw [this]
      · by_cases h1 : j = i + 1
        · exact ⟨3/l, hs0, hs1, by rw [h1, set1_same]; field_simp⟩
        · by_cases h2 : j = i
          · exact ⟨3/l, hs0, hs1, by rw [set1_ne _ _ h1, h2, set1_same]; field_simp⟩
          · exact ⟨1, by norm_num, le_refl _, by rw [set1_ne _ _ h1, set1_ne _ _ h2]; ring⟩
      · rw [set1_ne _ _ h2, set1_ne _ _ h1]
    · simp only [if_neg h3]
      refine ⟨⟨fun h' => absurd h' h, fun _ => ?_⟩, fun j => ⟨1, by norm_num, le_refl _, by ring⟩, fun _ _ _ => by trivial⟩
      have : l < 3 := not_le.mp h3
      have : l * l ≤ 9 := by nlinarith
      rw [hsq] at this
      nlinarith

/-- **C33.** After the modification step every section satisfies the Fritsch–Carlson condition, and each section velocity is
the initial one scaled by a factor in `[0,1]`. -/
theorem pchipModify_spec (tol : ℝ) (htol : 0 ≤ tol) (n : Nat) (dt x va : Nat → ℝ) :
    (∀ i, i + 1 < n → FCOk tol dt x (pchipModify tol n dt x va) i) ∧
    (∀ j, ∃ s, 0 ≤ s ∧ s ≤ 1 ∧ pchipModify tol n dt x va j = s * va j) := by
  have e : pchipModify tol n dt x va = forUp 0 (n-1) (pchipStep tol dt x) va := rfl
  rw [e]
  have h := forUp_inv (lo := 0) (hi := n-1) (pchipStep tol dt x) va
    (P := fun k va' => (∀ i, i < k → FCOk tol dt x va' i) ∧ (∀ j, ∃ s, 0 ≤ s ∧ s ≤ 1 ∧ va' j = s * va j))
    (by omega) ⟨by intro i hi; omega, fun j => ⟨1, by norm_num, le_refl _, by ring⟩⟩
    (by
      intro k va' _ hk ⟨h1, h2⟩
      obtain ⟨g1, g2, g3⟩ := pchipStep_spec tol htol dt x va' k
      refine ⟨fun i hi => ?_, fun j => ?_⟩
      · by_cases hik : i = k
        · subst hik; exact g1
        · exact FCOk_scale (h1 i (by omega)) (g2 i) (g2 (i+1))
      · obtain ⟨s, s0, s1, es⟩ := g2 j
        obtain ⟨r, r0, r1, er⟩ := h2 j
        exact ⟨s * r, mul_nonneg s0 r0, by nlinarith, by rw [es, er]; ring⟩)
  exact ⟨fun i hi => h.1 i (by omega), h.2⟩

/-- The key inequality: a cubic Hermite section whose end velocities are between 0 and 3 times the slope has velocity
of the sign of the slope throughout. -/
theorem hermite_vel_nonneg (d a b s : ℝ) (h0 : 0 ≤ s) (h1 : s ≤ 1) (ha0 : 0 ≤ a) (ha : a ≤ 3 * d) (hb0 : 0 ≤ b) (hb : b ≤ 3 * d) :
    0 ≤ 6 * s * (1 - s) * d + (1 - s) * (1 - 3 * s) * a + s * (3 * s - 2) * b := by
  have hd : 0 ≤ d := by linarith
  have hs : 0 ≤ 1 - s := by linarith
  rcases le_total s (1/3) with h | h
  · have p1 : 0 ≤ (1 - s) * (1 - 3 * s) * a := mul_nonneg (mul_nonneg hs (by linarith)) ha0
    have p2 : s * (2 - 3 * s) * b ≤ s * (2 - 3 * s) * (3 * d) := mul_le_mul_of_nonneg_left hb (mul_nonneg h0 (by linarith))
    nlinarith [mul_nonneg (mul_nonneg h0 h0) hd]
  · rcases le_total s (2/3) with h' | h'
    · have p1 : (1 - s) * (3 * s - 1) * a ≤ (1 - s) * (3 * s - 1) * (3 * d) := mul_le_mul_of_nonneg_left ha (mul_nonneg hs (by linarith))
      have p2 : s * (2 - 3 * s) * b ≤ s * (2 - 3 * s) * (3 * d) := mul_le_mul_of_nonneg_left hb (mul_nonneg h0 (by linarith))
      nlinarith [mul_nonneg (sq_nonneg (1 - 2 * s)) hd]
    · have p1 : (1 - s) * (3 * s - 1) * a ≤ (1 - s) * (3 * s - 1) * (3 * d) := mul_le_mul_of_nonneg_left ha (mul_nonneg hs (by linarith))
      have p2 : 0 ≤ s * (3 * s - 2) * b := mul_nonneg (mul_nonneg h0 (by linarith)) hb0
      nlinarith [mul_nonneg (mul_nonneg hs hs) hd]

theorem splSegVel_eq (dt x va : Nat → ℝ) (i : Nat) (h : dt (i+1) ≠ 0) (t : ℝ) :
    splSegVel dt (knotTime dt) x va i t = 6 * ((t - knotTime dt i) / dt (i+1)) * (1 - (t - knotTime dt i) / dt (i+1)) * secant dt x i
      + (1 - (t - knotTime dt i) / dt (i+1)) * (1 - 3 * ((t - knotTime dt i) / dt (i+1))) * va i
      + ((t - knotTime dt i) / dt (i+1)) * (3 * ((t - knotTime dt i) / dt (i+1)) - 2) * va (i+1) := by
  simp only [splSegVel, fergVel1, fergVel2, secant, knotTime]
  field_simp
  ring

/-- In a section where both end velocities have the sign of the data, the condition gives a non-negative velocity. -/
theorem splVel_nonneg_section (tol : ℝ) (htol : 0 ≤ tol) (n : Nat) (hn : 2 ≤ n) (dt x va : Nat → ℝ) (hdt : ∀ i, 0 < i → i < n → 0 < dt i)
    (i : Nat) (hi : i + 1 < n) (hx : x i ≤ x (i+1)) (hfc : FCOk tol dt x va i) (h0 : 0 ≤ va i) (h1 : 0 ≤ va (i+1)) (t : ℝ)
    (ht0 : knotTime dt i ≤ t) (ht1 : t ≤ knotTime dt (i+1)) : 0 ≤ splVel n dt (knotTime dt) x va t := by
  have hd := hdt (i+1) (by omega) hi
  have hsec : 0 ≤ secant dt x i := div_nonneg (by linarith) hd.le
  have hb : va i ≤ 3 * secant dt x i ∧ va (i+1) ≤ 3 * secant dt x i := by
    rcases le_or_gt |secant dt x i| tol with h | h
    · obtain ⟨a, b⟩ := hfc.1 h
      rw [a, b]; constructor <;> linarith
    · have hf := hfc.2 h
      have hp : 0 < secant dt x i := by
        rcases lt_or_eq_of_le hsec with hp | hp
        · exact hp
        · rw [← hp, abs_zero] at h; linarith
      have p1 := sq_nonneg (va i / secant dt x i)
      have p2 := sq_nonneg (va (i+1) / secant dt x i)
      have q1 : va i / secant dt x i ≤ 3 := by nlinarith
      have q2 : va (i+1) / secant dt x i ≤ 3 := by nlinarith
      rw [div_le_iff₀ hp] at q1 q2
      exact ⟨q1, q2⟩
  rcases lt_or_eq_of_le ht1 with ht | ht
  · unfold splVel
    rw [zIPDataSeg_eq n _ (fun i j h1 h2 => knotTime_lt hdt h1 h2) t i hi (Or.inr ht0) (Or.inr ht), splSegVel_eq _ _ _ _ hd.ne']
    refine hermite_vel_nonneg _ _ _ _ (div_nonneg (by linarith) hd.le) ?_ h0 hb.1 h1 hb.2
    rw [div_le_one hd]
    have : knotTime dt (i+1) = knotTime dt i + dt (i+1) := rfl
    linarith
  · rw [ht, (splVec_knot n hn dt x va hdt (i+1) hi).2]; exact h1

/-- Monotone over a range of sections. -/
theorem splVec_monotoneOn (tol : ℝ) (htol : 0 ≤ tol) (n : Nat) (hn : 2 ≤ n) (dt x va : Nat → ℝ) (hdt : ∀ i, 0 < i → i < n → 0 < dt i)
    (p q : Nat) (hpq : p < q) (hq : q < n) (hx : ∀ i, p ≤ i → i + 1 ≤ q → x i ≤ x (i+1)) (hfc : ∀ i, p ≤ i → i + 1 ≤ q → FCOk tol dt x va i)
    (hv : ∀ i, p ≤ i → i ≤ q → 0 ≤ va i) :
    MonotoneOn (splVec n dt (knotTime dt) x va) (Set.Icc (knotTime dt p) (knotTime dt q)) := by
  refine monotoneOn_of_deriv_nonneg (convex_Icc _ _) (fun t _ => (splVec_hasDerivAt n hn dt x va hdt t).continuousAt.continuousWithinAt)
    (fun t _ => (splVec_hasDerivAt n hn dt x va hdt t).differentiableAt.differentiableWithinAt) ?_
  intro t ht
  rw [interior_Icc] at ht
  rw [(splVec_hasDerivAt n hn dt x va hdt t).deriv]
  -- the section that contains t
  have mono : ∀ i j, i ≤ j → j < n → knotTime dt i ≤ knotTime dt j := by
    intro i j h1 h2
    rcases Nat.lt_or_ge i j with h | h
    · exact (knotTime_lt hdt h h2).le
    · rw [show i = j by omega]
  obtain ⟨a, b, c⟩ := zIPDataSeg_spec n hn (knotTime dt) t
  generalize zIPDataSeg n (knotTime dt) t = i at *
  have h1 : p ≤ i := by
    by_contra h
    rcases c with c | c
    · omega
    · have := mono (i+1) p (by omega) (by omega); linarith [ht.1]
  have h2 : i + 1 ≤ q := by
    by_contra h
    rcases b with b | b
    · omega
    · have := mono q i (by omega) (by omega); linarith [ht.2]
  refine splVel_nonneg_section tol htol n hn dt x va hdt i a (hx i h1 h2) (hfc i h1 h2) (hv i h1 (by omega)) (hv (i+1) (by omega) h2) t ?_ ?_
  · rcases b with b | b
    · have : p = i := by omega
      rw [← this]; exact ht.1.le
    · exact b
  · rcases c with c | c
    · have : q = i + 1 := by omega
      rw [← this]; exact ht.2.le
    · exact c.le

/-! ### The initial velocities -/

theorem pchipInit_spec (n : Nat) (hn : 3 ≤ n) (dt x va : Nat → ℝ) (hdt : ∀ i, 0 < i → i < n → 0 < dt i) :
    pchipInit n dt x va 0 = ((2 * dt 1 + dt 2) * secant dt x 0 - dt 1 * secant dt x 1) / (dt 1 + dt 2) ∧
    (∀ i, 0 < i → i + 1 < n → pchipInit n dt x va i = (dt (i+1) * secant dt x (i-1) + dt i * secant dt x i) / (dt i + dt (i+1))) ∧
    pchipInit n dt x va (n-1) = (dt (n-2) + 2 * dt (n-1)) / (dt (n-1) * (dt (n-2) + dt (n-1))) * (x (n-1) - x (n-3)) := by
  unfold pchipInit
  simp only
  have hloop := forUp_set1 (lo := 1) (hi := n-1) (fun i _ => ((0 + -dt (i+1)/(dt i*(dt i + dt (i+1))) * x (i-1)) + (dt (i+1)-dt i)/(dt i*dt (i+1)) * x i) + dt i/(dt (i+1)*(dt i + dt (i+1))) * x (i+1))
    (set1 va 0 (((0 + -(dt 1+(dt 1+dt 2))/(dt 1*(dt 1+dt 2)) * x 0) + (dt 1+dt 2)/(dt 1*dt 2) * x 1) + -dt 1/(dt 2*(dt 1+dt 2)) * x 2))
    (fun i => ((0 + -dt (i+1)/(dt i*(dt i + dt (i+1))) * x (i-1)) + (dt (i+1)-dt i)/(dt i*dt (i+1)) * x i) + dt i/(dt (i+1)*(dt i + dt (i+1))) * x (i+1))
    (fun _ _ _ _ _ _ => rfl)
  simp only [hloop]
  have h1 := hdt 1 (by omega) (by omega)
  have h2 := hdt 2 (by omega) (by omega)
  refine ⟨?_, ?_, ?_⟩
  · rw [set1_ne _ _ (show 0 ≠ n - 1 by omega), if_neg (by omega), set1_same]
    simp only [secant]
    field_simp
    ring
  · intro i hi0 hi
    rw [set1_ne _ _ (show i ≠ n - 1 by omega), if_pos (by omega)]
    have d1 := hdt i hi0 (by omega)
    have d2 := hdt (i+1) (by omega) (by omega)
    simp only [secant]
    rw [show i - 1 + 1 = i by omega]
    field_simp
    ring
  · rw [set1_same]
    have d1 := hdt (n-2) (by omega) (by omega)
    have d2 := hdt (n-1) (by omega) (by omega)
    rw [show n - 1 - 1 = n - 2 by omega, show n - 1 - 2 = n - 3 by omega]
    field_simp
    ring

/-- `zIPCreatePCHIP`, zm_ip_spline.c:311-318: initial velocities, then their modification. -/
noncomputable def pchipCreate (tol : ℝ) (n : Nat) (dt x va : Nat → ℝ) : Nat → ℝ := pchipModify tol n dt x (pchipInit n dt x va)

/-- **C33 (all sections but the first).** PCHIP interpolation of non-decreasing data with positive time increments passes
through the knots, is differentiable with the returned velocity as its derivative, and is non-decreasing from the second knot to the last; it is
non-decreasing over the whole range if moreover the three-point slope at the first knot is not negative.

Missing: the first section of arbitrary non-decreasing data, see `pchip_first_violated`. -/
theorem pchip_monotone_partial (tol : ℝ) (htol : 0 ≤ tol) (n : Nat) (hn : 3 ≤ n) (dt x va : Nat → ℝ)
    (hdt : ∀ i, 0 < i → i < n → 0 < dt i) (hx : ∀ i, i + 1 < n → x i ≤ x (i+1)) :
    let f := splVec n dt (knotTime dt) x (pchipCreate tol n dt x va)
    (∀ i, i < n → f (knotTime dt i) = x i) ∧
    (∀ t, HasDerivAt f (splVel n dt (knotTime dt) x (pchipCreate tol n dt x va) t) t) ∧
    MonotoneOn f (Set.Icc (knotTime dt 1) (knotTime dt (n-1))) ∧
    (dt 1 * ((x 2 - x 1) / dt 2) ≤ (2 * dt 1 + dt 2) * ((x 1 - x 0) / dt 1) → MonotoneOn f (Set.Icc (knotTime dt 0) (knotTime dt (n-1)))) := by
  intro f
  obtain ⟨i0, i1, i2⟩ := pchipInit_spec n hn dt x va hdt
  obtain ⟨m1, m2⟩ := pchipModify_spec tol htol n dt x (pchipInit n dt x va)
  have hsec : ∀ i, i + 1 < n → 0 ≤ secant dt x i := fun i hi => div_nonneg (by linarith [hx i hi]) (hdt _ (by omega) hi).le
  have sgn : ∀ j, 0 ≤ pchipInit n dt x va j → 0 ≤ pchipCreate tol n dt x va j := by
    intro j hj
    obtain ⟨s, s0, -, es⟩ := m2 j
    unfold pchipCreate
    rw [es]; exact mul_nonneg s0 hj
  have hv : ∀ j, 1 ≤ j → j < n → 0 ≤ pchipCreate tol n dt x va j := by
    intro j h1 h2
    apply sgn
    rcases Nat.lt_or_ge (j+1) n with h | h
    · rw [i1 j h1 h]
      have a1 := hdt j h1 h2
      have a2 := hdt (j+1) (by omega) h
      have b1 := hsec (j-1) (by omega)
      have b2 := hsec j h
      positivity
    · rw [show j = n - 1 by omega, i2]
      have a1 := hdt (n-2) (by omega) (by omega)
      have a2 := hdt (n-1) (by omega) (by omega)
      have b1 := hx (n-3) (by omega)
      have b2 := hx (n-2) (by omega)
      rw [show n - 3 + 1 = n - 2 by omega] at b1
      rw [show n - 2 + 1 = n - 1 by omega] at b2
      exact mul_nonneg (by positivity) (by linarith)
  refine ⟨fun i hi => (splVec_knot n (by omega) dt x _ hdt i hi).1, splVec_hasDerivAt n (by omega) dt x _ hdt, ?_, fun h0 => ?_⟩
  · exact splVec_monotoneOn tol htol n (by omega) dt x _ hdt 1 (n-1) (by omega) (by omega) (fun i _ h => hx i (by omega))
      (fun i _ h => m1 i (by omega)) (fun i h1 h2 => hv i h1 (by omega))
  · refine splVec_monotoneOn tol htol n (by omega) dt x _ hdt 0 (n-1) (by omega) (by omega) (fun i _ h => hx i (by omega))
      (fun i _ h => m1 i (by omega)) (fun i h1 h2 => ?_)
    by_cases hi : i = 0
    · subst hi
      apply sgn
      rw [i0]
      have a1 := hdt 1 (by omega) (by omega)
      have a2 := hdt 2 (by omega) (by omega)
      refine div_nonneg ?_ (by positivity)
      simp only [secant]
      linarith
    · exact hv i (by omega) (by omega)

/-! ### Non-increasing data, by symmetry -/

theorem splVec_neg (n : Nat) (dt T x va : Nat → ℝ) (t : ℝ) : splVec n dt T (fun i => -x i) (fun i => -va i) t = -splVec n dt T x va t := by
  simp only [splVec, splSegVec]; ring

theorem secant_neg (dt x : Nat → ℝ) (i : Nat) : secant dt (fun i => -x i) i = -secant dt x i := by
  simp only [secant]; ring

theorem set1_neg (v : Nat → ℝ) (i : Nat) (a : ℝ) : (fun j => -set1 v i a j) = set1 (fun j => -v j) i (-a) := by
  funext j; simp only [set1]; split <;> rfl

theorem pchipStep_neg (tol : ℝ) (dt x va : Nat → ℝ) (i : Nat) :
    pchipStep tol dt (fun i => -x i) i (fun j => -va j) = fun j => -pchipStep tol dt x i va j := by
  have e : (-x (i+1) - -x i) / dt (i+1) = -((x (i+1) - x i) / dt (i+1)) := by ring
  unfold pchipStep
  simp only [e, abs_neg]
  generalize (x (i+1) - x i) / dt (i+1) = d
  simp only [neg_div_neg_eq]
  by_cases h : |d| ≤ tol
  · simp only [if_pos h, set1_neg, neg_zero]
  · simp only [if_neg h]
    split
    · simp only [set1_neg]
      congr 1
      · congr 1; ring
      · ring
    · rfl

theorem pchipModify_neg (tol : ℝ) (n : Nat) (dt x va : Nat → ℝ) :
    pchipModify tol n dt (fun i => -x i) (fun j => -va j) = fun j => -pchipModify tol n dt x va j := by
  have e : ∀ x va, pchipModify tol n dt x va = forUp 0 (n-1) (pchipStep tol dt x) va := fun _ _ => rfl
  rw [e, e]
  generalize n - 1 = k
  induction k with
  | zero => rw [forUp_of_le (le_refl _), forUp_of_le (le_refl _)]
  | succ k ih => rw [forUp_succ (by omega), forUp_succ (by omega), ih, pchipStep_neg]

theorem splVec_congr (n : Nat) (hn : 2 ≤ n) (dt T x va va' : Nat → ℝ) (h : ∀ i, i < n → va i = va' i) (t : ℝ) :
    splVec n dt T x va t = splVec n dt T x va' t := by
  obtain ⟨a, -, -⟩ := zIPDataSeg_spec n hn T t
  simp only [splVec, splSegVec]
  rw [h _ (by omega), h _ a]

theorem pchipModify_congr (tol : ℝ) (n : Nat) (dt x va va' : Nat → ℝ) (h : ∀ i, i < n → va i = va' i) :
    ∀ i, i < n → pchipModify tol n dt x va i = pchipModify tol n dt x va' i := by
  have e : ∀ va, pchipModify tol n dt x va = forUp 0 (n-1) (pchipStep tol dt x) va := fun _ => rfl
  rw [e, e]
  suffices ∀ k, k + 1 ≤ n → ∀ i, i < n → forUp 0 k (pchipStep tol dt x) va i = forUp 0 k (pchipStep tol dt x) va' i by
    intro i hi; exact this (n-1) (by omega) i hi
  intro k
  induction k with
  | zero => intro _; rw [forUp_of_le (le_refl _), forUp_of_le (le_refl _)]; exact h
  | succ k ih =>
    intro hk
    have ih := ih (by omega)
    rw [forUp_succ (by omega), forUp_succ (by omega)]
    generalize forUp 0 k (pchipStep tol dt x) va = u at *
    generalize forUp 0 k (pchipStep tol dt x) va' = u' at *
    intro i hi
    unfold pchipStep
    simp only
    rw [ih k (by omega), ih (k+1) (by omega)]
    split
    · simp only [set1]; split
      · rfl
      · split
        · rfl
        · exact ih i hi
    · split
      · simp only [set1]; split
        · rfl
        · split
          · rfl
          · exact ih i hi
      · exact ih i hi

theorem pchipInit_neg (n : Nat) (hn : 3 ≤ n) (dt x va : Nat → ℝ) (hdt : ∀ i, 0 < i → i < n → 0 < dt i) (i : Nat) (hi : i < n) :
    pchipInit n dt (fun i => -x i) va i = -pchipInit n dt x va i := by
  obtain ⟨a0, a1, a2⟩ := pchipInit_spec n hn dt x va hdt
  obtain ⟨b0, b1, b2⟩ := pchipInit_spec n hn dt (fun i => -x i) va hdt
  by_cases h0 : i = 0
  · subst h0; rw [a0, b0, secant_neg, secant_neg]; ring
  · rcases Nat.lt_or_ge (i+1) n with h | h
    · rw [a1 i (by omega) h, b1 i (by omega) h, secant_neg, secant_neg]; ring
    · rw [show i = n - 1 by omega, a2, b2]; ring

/-- **C33 (all sections but the first).** The same for non-increasing data. -/
theorem pchip_antitone_partial (tol : ℝ) (htol : 0 ≤ tol) (n : Nat) (hn : 3 ≤ n) (dt x va : Nat → ℝ)
    (hdt : ∀ i, 0 < i → i < n → 0 < dt i) (hx : ∀ i, i + 1 < n → x (i+1) ≤ x i) :
    let f := splVec n dt (knotTime dt) x (pchipCreate tol n dt x va)
    AntitoneOn f (Set.Icc (knotTime dt 1) (knotTime dt (n-1))) ∧
    ((2 * dt 1 + dt 2) * ((x 1 - x 0) / dt 1) ≤ dt 1 * ((x 2 - x 1) / dt 2) → AntitoneOn f (Set.Icc (knotTime dt 0) (knotTime dt (n-1)))) := by
  intro f
  obtain ⟨-, -, h1, h2⟩ := pchip_monotone_partial tol htol n hn dt (fun i => -x i) va hdt (fun i hi => by linarith [hx i hi])
  have e : ∀ t, splVec n dt (knotTime dt) (fun i => -x i) (pchipCreate tol n dt (fun i => -x i) va) t = -f t := by
    intro t
    rw [← splVec_neg]
    apply splVec_congr n (by omega)
    intro i hi
    unfold pchipCreate
    rw [pchipModify_congr tol n dt _ _ (fun i => -pchipInit n dt x va i) (fun i hi => pchipInit_neg n hn dt x va hdt i hi) i hi]
    rw [pchipModify_neg]
  refine ⟨fun a ha b hb hab => ?_, fun hs a ha b hb hab => ?_⟩
  · have := h1 ha hb hab
    rw [e, e] at this; linarith
  · have := h2 (by
      have e1 : (-x 2 - -x 1) / dt 2 = -((x 2 - x 1) / dt 2) := by ring
      have e2 : (-x 1 - -x 0) / dt 1 = -((x 1 - x 0) / dt 1) := by ring
      rw [e1, e2]; linarith) ha hb hab
    rw [e, e] at this; linarith

/-! ### Violations -/

/-- A differentiable function with negative derivative at the left end is not monotone. -/
theorem not_monotoneOn_of_deriv_neg {f : ℝ → ℝ} {f' a b : ℝ} (hab : a < b) (h : HasDerivAt f f' a) (hf : f' < 0) :
    ¬ MonotoneOn f (Set.Icc a b) := by
  intro hm
  have ht := (hasDerivAt_iff_tendsto_slope.mp h).mono_left (nhdsWithin_mono a (show Set.Ioi a ⊆ {a}ᶜ from fun x hx => ne_of_gt hx))
  refine absurd (ge_of_tendsto ht ?_) (not_le.2 hf)
  have : Set.Ioo a b ∈ nhdsWithin a (Set.Ioi a) := Ioo_mem_nhdsGT hab
  filter_upwards [this] with s hs
  rw [slope_def_field]
  have := hm ⟨le_refl _, hab.le⟩ ⟨hs.1.le, hs.2.le⟩ hs.1.le
  exact div_nonneg (by linarith) (by linarith [hs.1])

/-- **C33, violated.** For the increasing data `0, 1, 11` at unit time increments the curve is not monotone: it first descends. -/
theorem pchip_first_violated (tol : ℝ) (htol : 0 ≤ tol) (ht : tol < 1) :
    let x : Nat → ℝ := fun i => if i = 0 then 0 else if i = 1 then 1 else 11
    ¬ MonotoneOn (splVec 3 (fun _ => 1) (knotTime fun _ => 1) x (pchipCreate tol 3 (fun _ => 1) x (fun _ => 0)))
      (Set.Icc (knotTime (fun _ => 1) 0) (knotTime (fun _ => 1) 2)) := by
  intro x
  have hdt : ∀ i : Nat, 0 < i → i < 3 → (0:ℝ) < (fun _ : Nat => (1:ℝ)) i := fun i _ _ => by norm_num
  refine not_monotoneOn_of_deriv_neg (knotTime_lt hdt (by norm_num) (by norm_num)) (splVec_hasDerivAt 3 (by norm_num) _ x _ hdt _) ?_
  rw [(splVec_knot 3 (by norm_num) _ x _ hdt 0 (by norm_num)).2]
  obtain ⟨i0, i1, -⟩ := pchipInit_spec 3 (le_refl _) (fun _ => (1:ℝ)) x (fun _ => 0) hdt
  have i1 := i1 1 (by norm_num) (by norm_num)
  replace i0 : pchipInit 3 (fun _ => 1) x (fun _ => 0) 0 = -(7/2) := by rw [i0]; norm_num [secant, x]
  replace i1 : pchipInit 3 (fun _ => 1) x (fun _ => 0) 1 = 11/2 := by rw [i1]; norm_num [secant, x]
  have e : pchipCreate tol 3 (fun _ => 1) x (fun _ => 0) = pchipStep tol (fun _ => 1) x 1 (pchipStep tol (fun _ => 1) x 0 (pchipInit 3 (fun _ => 1) x (fun _ => 0))) := rfl
  rw [e, (pchipStep_spec tol htol _ _ _ 1).2.2 0 (by norm_num) (by norm_num)]
  unfold pchipStep
  have hx1 : x (0+1) = 1 := by norm_num [x]
  have hx0 : x 0 = 0 := by norm_num [x]
  simp only [hx1, hx0, i0, Nat.zero_add, i1]
  norm_num
  rw [if_neg (not_le.2 ht)]
  split
  · rw [set1_ne _ _ (by norm_num), set1_same]
    apply div_neg_of_neg_of_pos (by norm_num)
    positivity
  · rw [i0]; norm_num

/-- **C33, violated.** The velocity at the last knot is not the three-point slope of the data: on the straight line
`x = t` it is larger than 2 although every slope of the data is 1 (the middle coefficient is applied to the wrong knot). -/
theorem pchip_last_violated (tol : ℝ) (ht : tol < 1) :
    2 < pchipCreate tol 3 (fun _ => 1) (fun i => (i:ℝ)) (fun _ => 0) 2 := by
  have hdt : ∀ i : Nat, 0 < i → i < 3 → (0:ℝ) < (fun _ : Nat => (1:ℝ)) i := fun i _ _ => by norm_num
  obtain ⟨i0, i1, i2⟩ := pchipInit_spec 3 (le_refl _) (fun _ => (1:ℝ)) (fun i => (i:ℝ)) (fun _ => 0) hdt
  have i1 := i1 1 (by norm_num) (by norm_num)
  norm_num [secant] at i0 i1 i2
  have e : pchipCreate tol 3 (fun _ => 1) (fun i => (i:ℝ)) (fun _ => 0) = pchipStep tol (fun _ => 1) (fun i => (i:ℝ)) 1 (pchipStep tol (fun _ => 1) (fun i => (i:ℝ)) 0 (pchipInit 3 (fun _ => 1) (fun i => (i:ℝ)) (fun _ => 0))) := rfl
  have e0 : pchipStep tol (fun _ => 1) (fun i => (i:ℝ)) 0 (pchipInit 3 (fun _ => 1) (fun i => (i:ℝ)) (fun _ => 0)) = pchipInit 3 (fun _ => 1) (fun i => (i:ℝ)) (fun _ => 0) := by
    unfold pchipStep
    norm_num [i0, i1]
    rw [if_neg (not_le.2 ht), if_neg]
    rw [not_le, Real.sqrt_lt' (by norm_num)]; norm_num
  rw [e, e0]
  unfold pchipStep
  norm_num [i1, i2]
  rw [if_neg (not_le.2 ht)]
  have hs : (3:ℝ) ≤ Real.sqrt 10 := by rw [Real.le_sqrt (by norm_num) (by norm_num)]; norm_num
  have hs2 : Real.sqrt 10 < 4 := by rw [Real.sqrt_lt' (by norm_num)]; norm_num
  rw [if_pos hs, set1_same, lt_div_iff₀ (by linarith)]
  linarith

/-- Non-vacuity of `pchip_monotone_partial`, including the slope condition at the first knot. -/
example : MonotoneOn (splVec 4 (fun _ => 1) (knotTime fun _ => 1) (fun i => (i*i:ℝ)) (pchipCreate 0 4 (fun _ => 1) (fun i => (i*i:ℝ)) (fun _ => 0)))
    (Set.Icc (knotTime (fun _ => 1) 0) (knotTime (fun _ => 1) 3)) :=
  (pchip_monotone_partial 0 (le_refl _) 4 (by norm_num) (fun _ => 1) (fun i => (i*i:ℝ)) (fun _ => 0) (fun _ _ _ => by norm_num)
    (fun i _ => by push_cast; nlinarith [(Nat.cast_nonneg i : (0:ℝ) ≤ i)])).2.2.2 (by norm_num)

/-! ## Akima -/

section akima
variable {K : Type*} [Field K] [LinearOrder K] [IsStrictOrderedRing K]

theorem akSegVec_eq (dt x va : Nat → K) (i : Nat) (h : dt (i+1) ≠ 0) (t : K) :
    akSegVec dt (knotTime dt) x va i t = splSegVec dt (knotTime dt) x va i t := by
  simp only [akSegVec, splSegVec, ferg1, ferg2, knotTime]; field_simp; ring
theorem akSegVel_eq (dt x va : Nat → K) (i : Nat) (h : dt (i+1) ≠ 0) (t : K) :
    akSegVel dt (knotTime dt) x va i t = splSegVel dt (knotTime dt) x va i t := by
  simp only [akSegVel, splSegVel, fergVel1, fergVel2, knotTime]; field_simp; ring
theorem akSegAcc_eq (dt x va : Nat → K) (i : Nat) (h : dt (i+1) ≠ 0) (t : K) :
    akSegAcc dt (knotTime dt) x va i t = splSegAcc dt (knotTime dt) x va i t := by
  simp only [akSegAcc, splSegAcc, fergAcc1, fergAcc2, knotTime]; field_simp; ring

theorem akSlopes_spec (n : Nat) (hn : 3 ≤ n) (dt x m : Nat → K) :
    (∀ j, 2 ≤ j → j ≤ n → akSlopes n dt x m j = (x (j-1) - x (j-2)) / dt (j-1)) ∧
    akSlopes n dt x m 0 = 3 * akSlopes n dt x m 2 - 2 * akSlopes n dt x m 3 ∧
    akSlopes n dt x m 1 = 2 * akSlopes n dt x m 2 - akSlopes n dt x m 3 ∧
    akSlopes n dt x m (n+1) = 2 * akSlopes n dt x m n - 2 * akSlopes n dt x m (n-1) ∧
    akSlopes n dt x m (n+2) = 3 * akSlopes n dt x m n - akSlopes n dt x m (n-1) := by
  unfold akSlopes
  have hl := forUp_set1 (lo := 2) (hi := n+1) (fun j _ => (x (j-1) - x (j-2)) / dt (j-1)) m (fun j => (x (j-1) - x (j-2)) / dt (j-1))
    (fun _ _ _ _ _ _ => rfl)
  generalize forUp 2 (n+1) (fun j m => set1 m j ((x (j-1) - x (j-2)) / dt (j-1))) m = m1 at *
  have h3 : n = 3 ∨ n ≠ 3 := by omega
  refine ⟨fun j h1 h2 => ?_, ?_, ?_, ?_, ?_⟩
  · simp only [set1, show j ≠ n + 2 by omega, show j ≠ n + 1 by omega, show j ≠ 1 by omega, show j ≠ 0 by omega, if_false]
    rw [hl]; beta_reduce; rw [if_pos (by omega)]
  · simp [set1, show n ≠ 0 by omega, show (0:Nat) ≠ n + 2 by omega, show (0:Nat) ≠ n + 1 by omega, show (2:Nat) ≠ n + 2 by omega, show (2:Nat) ≠ n + 1 by omega,
      show (3:Nat) ≠ n + 2 by omega, show (3:Nat) ≠ n + 1 by omega]
    try rw [if_neg (by omega), if_neg (by omega)]
  · simp [set1, show (1:Nat) ≠ n + 2 by omega, show (2:Nat) ≠ n + 2 by omega, show (2:Nat) ≠ n + 1 by omega,
      show (3:Nat) ≠ n + 2 by omega, show (3:Nat) ≠ n + 1 by omega, show (0:Nat) ≠ n by omega]
    rw [if_neg (by omega), if_neg (by omega)]
  · simp [set1, show n ≠ 1 by omega, show n ≠ 0 by omega, show n - 1 ≠ n + 2 by omega, show n - 1 ≠ n + 1 by omega, show n - 1 ≠ 1 by omega,
      show n - 1 ≠ 0 by omega]
  · simp [set1, show n ≠ 1 by omega, show n ≠ 0 by omega, show n - 1 ≠ n + 2 by omega, show n - 1 ≠ n + 1 by omega, show n - 1 ≠ 1 by omega,
      show n - 1 ≠ 0 by omega]

theorem akCreate_spec (tol : K) (weight : (Nat → K) → Nat → K) (n : Nat) (dt x m va : Nat → K) (j : Nat) (hj : j < n) :
    akCreate tol weight n dt x m va j =
      let m := akSlopes n dt x m
      let dm1 := weight m j
      let dm2 := weight m (j+2)
      if |dm1| ≤ tol ∧ |dm2| ≤ tol then 1/2 * (dm1 + dm2) else (dm2 * m (j+1) + dm1 * m (j+2)) / (dm1 + dm2) := by
  unfold akCreate
  simp only
  rw [forUp_set1 (lo := 0) (hi := n) (fun j _ => if |weight (akSlopes n dt x m) j| ≤ tol ∧ |weight (akSlopes n dt x m) (j+2)| ≤ tol then
      1/2 * (weight (akSlopes n dt x m) j + weight (akSlopes n dt x m) (j+2)) else
      (weight (akSlopes n dt x m) (j+2) * akSlopes n dt x m (j+1) + weight (akSlopes n dt x m) j * akSlopes n dt x m (j+2)) /
        (weight (akSlopes n dt x m) j + weight (akSlopes n dt x m) (j+2))) va (fun j => if |weight (akSlopes n dt x m) j| ≤ tol ∧ |weight (akSlopes n dt x m) (j+2)| ≤ tol then
      1/2 * (weight (akSlopes n dt x m) j + weight (akSlopes n dt x m) (j+2)) else
      (weight (akSlopes n dt x m) (j+2) * akSlopes n dt x m (j+1) + weight (akSlopes n dt x m) j * akSlopes n dt x m (j+2)) /
        (weight (akSlopes n dt x m) j + weight (akSlopes n dt x m) (j+2))) (fun _ _ _ _ _ _ => rfl)]
  beta_reduce
  rw [if_pos (by omega)]

end akima

/-- **C34 (what holds).** For positive time increments, the Akima interpolator (either weight) passes through every knot, and
is differentiable at every time with the returned velocity as its derivative; within a section the returned acceleration is the derivative of the
velocity.

Missing: straight lines are not reproduced, see `akima_line_violated`, and the edge slopes are not Akima's, see
`akima_edge_violated`. -/
theorem akima_partial (n : Nat) (hn : 3 ≤ n) (dt x va : Nat → ℝ) (hdt : ∀ i, 0 < i → i < n → 0 < dt i) :
    (∀ i, i < n → akVec n dt (knotTime dt) x va (knotTime dt i) = x i) ∧
    (∀ i, i < n → akVel n dt (knotTime dt) x va (knotTime dt i) = va i) ∧
    (∀ t, HasDerivAt (akVec n dt (knotTime dt) x va) (akVel n dt (knotTime dt) x va t) t) ∧
    (∀ i t, i + 1 < n → HasDerivAt (akSegVel dt (knotTime dt) x va i) (akSegAcc dt (knotTime dt) x va i t) t) := by
  have e1 : akVec n dt (knotTime dt) x va = splVec n dt (knotTime dt) x va := by
    funext t
    obtain ⟨a, -, -⟩ := zIPDataSeg_spec n (by omega) (knotTime dt) t
    exact akSegVec_eq dt x va _ (hdt _ (by omega) a).ne' t
  have e2 : akVel n dt (knotTime dt) x va = splVel n dt (knotTime dt) x va := by
    funext t
    obtain ⟨a, -, -⟩ := zIPDataSeg_spec n (by omega) (knotTime dt) t
    exact akSegVel_eq dt x va _ (hdt _ (by omega) a).ne' t
  rw [e1, e2]
  refine ⟨fun i hi => (splVec_knot n (by omega) dt x va hdt i hi).1, fun i hi => (splVec_knot n (by omega) dt x va hdt i hi).2,
    splVec_hasDerivAt n (by omega) dt x va hdt, fun i t hi => ?_⟩
  have h := (hdt (i+1) (by omega) hi).ne'
  have e3 : akSegVel dt (knotTime dt) x va i = splSegVel dt (knotTime dt) x va i := funext fun t => akSegVel_eq dt x va i h t
  rw [e3, akSegAcc_eq _ _ _ _ h]
  exact splSegVel_hasDerivAt _ _ _ _ _ h t

/-- The section velocity is Akima's weighted mean of the adjacent slopes whenever the two weights are not both tiny
(sections away from the edges; `m` here is the table of slopes, shifted by two). -/
theorem akCreate_interior (tol : ℝ) (htol : 0 ≤ tol) (n : Nat) (hn : 3 ≤ n) (dt x m va : Nat → ℝ) (j : Nat) (h1 : 2 ≤ j) (h2 : j + 2 < n)
    (hw : ¬ (|secant dt x (j-1) - secant dt x (j-2)| ≤ tol ∧ |secant dt x (j+1) - secant dt x j| ≤ tol)) :
    akCreate tol akWeight n dt x m va j =
      (|secant dt x (j+1) - secant dt x j| * secant dt x (j-1) + |secant dt x (j-1) - secant dt x (j-2)| * secant dt x j) /
        (|secant dt x (j-1) - secant dt x (j-2)| + |secant dt x (j+1) - secant dt x j|) := by
  rw [akCreate_spec _ _ _ _ _ _ _ _ (by omega)]
  obtain ⟨s, -, -, -, -⟩ := akSlopes_spec n hn dt x m
  have s0 := s j (by omega) (by omega)
  have s1 := s (j+1) (by omega) (by omega)
  have s2 := s (j+2) (by omega) (by omega)
  have s3 := s (j+3) (by omega) (by omega)
  simp only [akWeight, show j + 2 + 1 = j + 3 by omega, s0, s1, s2, s3]
  have t0 : (x (j-1) - x (j-2)) / dt (j-1) = secant dt x (j-2) := by simp only [secant, show j - 2 + 1 = j - 1 by omega]
  have t1 : (x (j+1-1) - x (j+1-2)) / dt (j+1-1) = secant dt x (j-1) := by simp only [secant, show j + 1 - 1 = j by omega, show j + 1 - 2 = j - 1 by omega, show j - 1 + 1 = j by omega]
  have t2 : (x (j+2-1) - x (j+2-2)) / dt (j+2-1) = secant dt x j := by simp only [secant, show j + 2 - 1 = j + 1 by omega, show j + 2 - 2 = j by omega]
  have t3 : (x (j+3-1) - x (j+3-2)) / dt (j+3-1) = secant dt x (j+1) := by simp only [secant, show j + 3 - 1 = j + 1 + 1 by omega, show j + 3 - 2 = j + 1 by omega]
  rw [t0, t1, t2, t3, abs_abs, abs_abs, if_neg hw]

/-- **C34, violated.** On the straight line `x = t` (at least five knots, unit time increments) the velocity at every knot
`2 ≤ j ≤ n - 3` is zero: the rule for equal slopes averages the weights instead of the slopes. -/
theorem akima_line_violated (tol : ℝ) (htol : 0 ≤ tol) (n : Nat) (hn : 5 ≤ n) (m va : Nat → ℝ) (j : Nat) (h1 : 2 ≤ j) (h2 : j + 2 < n) :
    akCreate tol akWeight n (fun _ => 1) (fun i => (i:ℝ)) m va j = 0 ∧
    akVel n (fun _ => 1) (knotTime fun _ => 1) (fun i => (i:ℝ)) (akCreate tol akWeight n (fun _ => 1) (fun i => (i:ℝ)) m va) (knotTime (fun _ => 1) j) ≠ 1 := by
  have h : akCreate tol akWeight n (fun _ => 1) (fun i => (i:ℝ)) m va j = 0 := by
    rw [akCreate_spec _ _ _ _ _ _ _ _ (by omega)]
    obtain ⟨s, -, -, -, -⟩ := akSlopes_spec n (by omega) (fun _ => 1) (fun i => (i:ℝ)) m
    have s' : ∀ k, 2 ≤ k → k ≤ n → akSlopes n (fun _ => 1) (fun i => (i:ℝ)) m k = 1 := by
      intro k k1 k2
      rw [s k k1 k2]
      obtain ⟨k, rfl⟩ : ∃ l, k = l + 2 := ⟨k - 2, by omega⟩
      simp only [show k + 2 - 1 = k + 1 by omega, show k + 2 - 2 = k by omega]
      push_cast; ring
    have w0 : akWeight (akSlopes n (fun _ => 1) (fun i => (i:ℝ)) m) j = 0 := by
      simp only [akWeight]; rw [s' j h1 (by omega), s' (j+1) (by omega) (by omega)]; simp
    have w2 : akWeight (akSlopes n (fun _ => 1) (fun i => (i:ℝ)) m) (j+2) = 0 := by
      simp only [akWeight]; rw [s' (j+2) (by omega) (by omega), s' (j+2+1) (by omega) (by omega)]; simp
    simp only [w0, w2]
    rw [if_pos (by simpa using htol)]; simp
  refine ⟨h, ?_⟩
  rw [(akima_partial n (by omega) (fun _ => 1) _ _ (fun _ _ _ => by norm_num)).2.1 j (by omega), h]
  norm_num

/-- **C34, violated.** The extrapolated terminal slopes: on a straight line of slope `s` they are `0` and `2 s`
(Akima's rule gives `s` for both). -/
theorem akima_edge_violated (n : Nat) (hn : 3 ≤ n) (s : ℝ) (m : Nat → ℝ) :
    akSlopes n (fun _ => 1) (fun i => s * (i:ℝ)) m n = s ∧ akSlopes n (fun _ => 1) (fun i => s * (i:ℝ)) m 1 = s ∧
    akSlopes n (fun _ => 1) (fun i => s * (i:ℝ)) m (n+1) = 0 ∧ akSlopes n (fun _ => 1) (fun i => s * (i:ℝ)) m (n+2) = 2 * s := by
  obtain ⟨h, -, h1, h3, h4⟩ := akSlopes_spec n hn (fun _ => 1) (fun i => s * (i:ℝ)) m
  have s' : ∀ k, 2 ≤ k → k ≤ n → akSlopes n (fun _ => 1) (fun i => s * (i:ℝ)) m k = s := by
    intro k k1 k2
    rw [h k k1 k2]
    obtain ⟨k, rfl⟩ : ∃ l, k = l + 2 := ⟨k - 2, by omega⟩
    simp only [show k + 2 - 1 = k + 1 by omega, show k + 2 - 2 = k by omega]
    push_cast; ring
  by_cases h3' : n = 3
  · subst h3'
    rw [h1, h3, h4, s' 2 (by omega) (by omega), s' 3 (by omega) (by omega)]
    refine ⟨rfl, by ring, by ring_nf, ?_⟩
    norm_num [s']; ring
  · rw [h1, h3, h4, s' 2 (by omega) (by omega), s' 3 (by omega) (by omega), s' n (by omega) (by omega), s' (n-1) (by omega) (by omega)]
    exact ⟨rfl, by ring, by ring, by ring⟩

end Zm.IP
