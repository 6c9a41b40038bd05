import Verif.Model.IPSec
import Verif.Props.IPSpline
import Verif.Props.IPLagrange
import Verif.Props.IPHermite
import Mathlib.Topology.Algebra.Order.Field

/-! # Velocity and acceleration of interpolators at a section (C183) -/

set_option linter.unusedSectionVars false

namespace Zm.IP
open Zm Misc Filter Topology Polynomial

/-! ## Linear -/

/-- Just after and just before a knot the velocity of the linear interpolator is constant. -/
theorem linVel_near (n : Nat) (hn : 2 ≤ n) (dt va : Nat → ℝ) (hdt : ∀ i, 0 < i → i < n → 0 < dt i) (i : Nat) (hi : i < n) :
    ∀ᶠ h in 𝓝[>] (0:ℝ), linVel n (knotTime dt) va (knotTime dt i + h) = va (min i (n-2)) ∧
      linVel n (knotTime dt) va (knotTime dt i - h) = va (i-1) := by
  have hT : ∀ i j, i < j → j < n → knotTime dt i < knotTime dt j := fun i j h1 h2 => knotTime_lt hdt h1 h2
  have key : ∀ t j, j + 1 < n → (j = 0 ∨ knotTime dt j ≤ t) → (j + 2 = n ∨ t < knotTime dt (j+1)) →
      linVel n (knotTime dt) va t = va j := by
    intro t j hj h1 h2
    unfold linVel linSecVel
    rw [zIPDataSeg_eq n _ hT t j hj h1 h2, if_neg (by omega)]
    simp
  have e1 : ∀ᶠ h in 𝓝[>] (0:ℝ), 0 < h := self_mem_nhdsWithin
  have e2 : ∀ᶠ h in 𝓝[>] (0:ℝ), i + 1 < n → knotTime dt i + h < knotTime dt (i+1) := by
    by_cases c : i + 1 < n
    · have h0 := hT i (i+1) (by omega) c
      have : Set.Iio (knotTime dt (i+1) - knotTime dt i) ∈ 𝓝[>] (0:ℝ) :=
        nhdsWithin_le_nhds (Iio_mem_nhds (by linarith))
      filter_upwards [this] with h hh _
      have : h < knotTime dt (i+1) - knotTime dt i := hh
      linarith
    · exact Eventually.of_forall fun _ h => absurd h c
  have e3 : ∀ᶠ h in 𝓝[>] (0:ℝ), 0 < i → knotTime dt (i-1) < knotTime dt i - h := by
    by_cases c : 0 < i
    · have h0 := hT (i-1) i (by omega) hi
      have : Set.Iio (knotTime dt i - knotTime dt (i-1)) ∈ 𝓝[>] (0:ℝ) :=
        nhdsWithin_le_nhds (Iio_mem_nhds (by linarith))
      filter_upwards [this] with h hh _
      have : h < knotTime dt i - knotTime dt (i-1) := hh
      linarith
    · exact Eventually.of_forall fun _ h => absurd h c
  filter_upwards [e1, e2, e3] with h h1 h2 h3
  constructor
  · by_cases c : i + 1 < n
    · rw [Nat.min_eq_left (by omega)]
      exact key _ i c (Or.inr (by linarith)) (Or.inr (h2 c))
    · rw [Nat.min_eq_right (by omega)]
      have := hT (n-2) i (by omega) hi
      exact key _ (n-2) (by omega) (Or.inr (by linarith)) (Or.inl (by omega))
  · by_cases c : 0 < i
    · refine key _ (i-1) (by omega) (Or.inr (h3 c).le) (Or.inr ?_)
      rw [show i - 1 + 1 = i by omega]; linarith
    · have : i = 0 := by omega
      subst this
      have := hT 0 1 (by omega) (by omega)
      exact key _ 0 (by omega) (Or.inl rfl) (Or.inr (by linarith))

/-- A returned number describes the limit of `f` when the step tends to zero: a finite number is the limit itself, an infinite
one says that `f` grows, or falls, beyond every bound. -/
def LimitIs (f : ℝ → ℝ) : Dbl ℝ → Prop
  | .fin a => Tendsto f (𝓝[>] 0) (𝓝 a)
  | .inf false => Tendsto f (𝓝[>] 0) atTop
  | .inf true => Tendsto f (𝓝[>] 0) atBot
  | .nan => False

/-- **C183.** The acceleration of a linear interpolator at any section is the limit of the quotients of the differences of its
velocity about that knot: infinite, with the right sign, where the slope changes, and zero elsewhere. -/
theorem linSecAcc_limit (n : Nat) (hn : 2 ≤ n) (dt va : Nat → ℝ) (hdt : ∀ i, 0 < i → i < n → 0 < dt i) (i : Nat) (hi : i < n) :
    LimitIs (fun h => (linVel n (knotTime dt) va (knotTime dt i + h) - linVel n (knotTime dt) va (knotTime dt i - h)) / (2 * h))
      (linSecAcc n va i) := by
  have hev := linVel_near n hn dt va hdt i hi
  have hc : ∀ᶠ h in 𝓝[>] (0:ℝ), ((va (min i (n-2)) - va (i-1)) / 2) * h⁻¹ =
      (linVel n (knotTime dt) va (knotTime dt i + h) - linVel n (knotTime dt) va (knotTime dt i - h)) / (2 * h) := by
    filter_upwards [hev] with h hh
    rw [hh.1, hh.2, div_eq_mul_inv, div_eq_mul_inv, mul_inv]; ring
  unfold linSecAcc
  by_cases c1 : i ≤ 0 ∨ i + 1 ≥ n
  · rw [if_pos c1]
    refine Tendsto.congr' hc ?_
    have : va (min i (n-2)) = va (i-1) := by
      congr 1
      omega
    rw [this]; simp
  rw [if_neg c1]
  have hm : min i (n-2) = i := by omega
  rw [hm] at hc
  by_cases c2 : va i > va (i-1)
  · rw [if_pos c2]
    exact Tendsto.congr' hc (tendsto_inv_nhdsGT_zero.const_mul_atTop (by linarith))
  rw [if_neg c2]
  by_cases c3 : va i < va (i-1)
  · rw [if_pos c3]
    exact Tendsto.congr' hc (tendsto_inv_nhdsGT_zero.const_mul_atTop_of_neg (by linarith))
  · rw [if_neg c3]
    refine Tendsto.congr' hc ?_
    have : va i = va (i-1) := le_antisymm (not_lt.mp c2) (not_lt.mp c3)
    rw [this]; simp

/-- **C183.** Off the knots, by more than the tolerance, the acceleration of a linear interpolator is zero; at a knot it is that
of the section (knots further apart than the tolerance). -/
theorem linAcc_spec (tol : ℝ) (htol : 0 ≤ tol) (n : Nat) (hn : 2 ≤ n) (dt va : Nat → ℝ) (hdt : ∀ i, 0 < i → i < n → 0 < dt i) :
    (∀ t, (∀ i, i < n → tol < |knotTime dt i - t|) →
      linAcc tol n (knotTime dt) va t = .fin 0 ∧ HasDerivAt (linVel n (knotTime dt) va) 0 t) ∧
    (∀ i, i < n → (∀ j, 0 < j → j < n → tol < dt j) →
      linAcc tol n (knotTime dt) va (knotTime dt i) = linSecAcc n va i) := by
  have hT : ∀ i j, i < j → j < n → knotTime dt i < knotTime dt j := fun i j h1 h2 => knotTime_lt hdt h1 h2
  constructor
  · intro t ht
    obtain ⟨a, b, c⟩ := zIPDataSeg_spec n hn (knotTime dt) t
    constructor
    · unfold linAcc
      dsimp only
      rw [if_neg]
      unfold zIsTol
      simpa using ht _ (by omega)
    · generalize hI : zIPDataSeg n (knotTime dt) t = i at *
      have e1 : ∀ᶠ s in nhds t, i = 0 ∨ knotTime dt i ≤ s := by
        rcases b with b | b
        · exact Filter.Eventually.of_forall fun _ => Or.inl b
        · have : knotTime dt i < t := by
            rcases lt_or_eq_of_le b with h | h
            · exact h
            · have := ht i (by omega); rw [h] at this; simp at this; linarith
          exact Filter.Eventually.mono (Ioi_mem_nhds this) fun s hs => Or.inr (le_of_lt hs)
      have e2 : ∀ᶠ s in nhds t, i + 2 = n ∨ s < knotTime dt (i+1) := by
        rcases c with c | c
        · exact Filter.Eventually.of_forall fun _ => Or.inl c
        · exact Filter.Eventually.mono (Iio_mem_nhds c) fun s hs => Or.inr hs
      refine (hasDerivAt_const t (va i)).congr_of_eventuallyEq ?_
      filter_upwards [e1, e2] with s h1 h2
      unfold linVel linSecVel
      rw [zIPDataSeg_eq n _ hT s i a h1 h2, if_neg (by omega)]
      simp
  · intro i hi hgap
    unfold linAcc
    dsimp only
    rw [zIPDataSeg_knot n hn _ hT i hi]
    by_cases c : i + 1 < n
    · rw [Nat.min_eq_left (by omega), if_pos]
      unfold zIsTol
      simpa using htol
    · have : i = n - 1 := by omega
      subst this
      rw [Nat.min_eq_right (by omega), if_neg]
      · unfold linSecAcc; rw [if_pos (by omega)]
      · obtain ⟨m, rfl⟩ : ∃ m, n = m + 2 := ⟨n - 2, by omega⟩
        have := hgap (m+1) (by omega) (by omega)
        unfold zIsTol
        simp only [show m + 2 - 1 = m + 1 by omega, show m + 2 - 2 = m by omega, knotTime]
        simp only [sub_add_cancel_left, abs_neg, decide_eq_true_eq, not_le]
        exact lt_of_lt_of_le this (le_abs_self _)

/-- **C183.** The velocity of a linear interpolator at a section other than the last is the one on its right.

Missing: the last section, see `linSecVel_last_violated`. -/
theorem linSecVel_partial (n : Nat) (hn : 2 ≤ n) (dt va : Nat → ℝ) (hdt : ∀ i, 0 < i → i < n → 0 < dt i) (i : Nat) (hi : i + 1 < n) :
    linSecVel n va i = linVel n (knotTime dt) va (knotTime dt i) := by
  unfold linVel
  rw [zIPDataSeg_knot n hn _ (fun i j h1 h2 => knotTime_lt hdt h1 h2) i (by omega), Nat.min_eq_left (by omega)]

/-- **C183, violated.** At the last section the velocity is returned as zero, whatever the slope there. -/
theorem linSecVel_last_violated (n : Nat) (hn : 2 ≤ n) (dt va : Nat → ℝ) (hdt : ∀ i, 0 < i → i < n → 0 < dt i) (hv : va (n-2) ≠ 0) :
    linSecVel n va ((n - 1 : Nat) : Int) = 0 ∧ linVel n (knotTime dt) va (knotTime dt (n-1)) = va (n-2) ∧
      linSecVel n va ((n - 1 : Nat) : Int) ≠ linVel n (knotTime dt) va (knotTime dt (n-1)) := by
  have h1 : linSecVel n va ((n - 1 : Nat) : Int) = 0 := by
    unfold linSecVel; rw [if_pos (by omega)]
  have h2 : linVel n (knotTime dt) va (knotTime dt (n-1)) = va (n-2) := by
    unfold linVel
    rw [zIPDataSeg_knot n hn _ (fun i j h1 h2 => knotTime_lt hdt h1 h2) (n-1) (by omega), Nat.min_eq_right (by omega)]
    unfold linSecVel; rw [if_neg (by omega)]; simp
  exact ⟨h1, h2, by rw [h1, h2]; exact Ne.symm hv⟩

/-! ## Lagrange and Chebyshev -/

section field
variable {K : Type*} [Field K] [LinearOrder K] [IsStrictOrderedRing K]

/-- **C183.** Lagrange: velocity and acceleration at a section are the first and second derivative there of the polynomial through
all the knots. -/
theorem lagSec_correct (n : Nat) (T x va : Nat → K) (i : Nat) :
    lagSecVel n T (lagCreate n T x va) i = (derivative (Lagrange.interpolate (Finset.range n) T x)).eval (T i) ∧
    lagSecAcc n T (lagCreate n T x va) i = (derivative (derivative (Lagrange.interpolate (Finset.range n) T x))).eval (T i) :=
  ⟨lagVel_correct n T x va (T i), lagAcc_correct n T x va (T i)⟩

/-- **C183.** Chebyshev: velocity and acceleration at a section are the first and second derivative there of the polynomial whose
values the interpolator returns. -/
theorem chebSec_correct (n : Nat) (hn : 2 ≤ n) (T va : Nat → K) :
    ∃ p : K[X], (∀ t, chebVec n T va t = p.eval t) ∧
      ∀ i, chebSecVel n T va i = (derivative p).eval (T i) ∧ chebSecAcc n T va i = (derivative (derivative p)).eval (T i) :=
  ⟨chebPoly n (T 0) (T (n-1)) va, fun t => chebVec_correct n hn T va t,
    fun i => ⟨chebVel_correct n hn T va (T i), chebAcc_correct n hn T va (T i)⟩⟩

end field

/-! ## PCHIP -/

/-- **C183, violated.** PCHIP: for every data set and every section, adding a constant to the data, which does not change the
acceleration of the curve, changes the one returned for the section; so it is wrong for all constants but at most one. -/
theorem pchipSecAcc_violated (n : Nat) (hn : 2 ≤ n) (dt x va : Nat → ℝ) (hdt : ∀ i, 0 < i → i < n → 0 < dt i) (i : Nat) (hi : i + 1 < n) :
    ∃ c0 : ℝ, ∀ c, c ≠ c0 →
      pchipSecAcc n dt (fun j => x j + c) va i ≠ .ok (splAcc n dt (knotTime dt) (fun j => x j + c) va (knotTime dt i)) := by
  refine ⟨(-(splAcc n dt (knotTime dt) x va (knotTime dt i)) - 6 * x i - 4 * dt (i+1) * va i) / 6, fun c hc h => hc ?_⟩
  unfold pchipSecAcc at h
  rw [if_pos hi] at h
  injection h with h
  have e : splAcc n dt (knotTime dt) (fun j => x j + c) va (knotTime dt i) = splAcc n dt (knotTime dt) x va (knotTime dt i) := by
    unfold splAcc
    rw [zIPDataSeg_knot n hn _ (fun i j h1 h2 => knotTime_lt hdt h1 h2) i (by omega), Nat.min_eq_left (by omega)]
    have hd := (hdt (i+1) (by omega) hi).ne'
    rw [splSegAcc_left _ _ _ _ hd, splSegAcc_left _ _ _ _ hd]
    ring_nf
  rw [e] at h
  have h' : (x i + c) * -6 + -(dt (i+1)) * 4 * va i = splAcc n dt (knotTime dt) x va (knotTime dt i) := h
  field_simp
  linarith

/-- **C183, violated.** PCHIP: the acceleration at the last section reads the time increment of a knot that does not exist. -/
theorem pchipSecAcc_last_violated (n : Nat) (hn : 0 < n) (dt x va : Nat → ℝ) : pchipSecAcc n dt x va (n-1) = .ub := by
  unfold pchipSecAcc; rw [if_neg (by omega)]

/-- A concrete case: constant data and zero velocities, whose acceleration is returned as -6. -/
example : pchipSecAcc 3 (fun _ => (1:ℝ)) (fun _ => 1) (fun _ => 0) 1 = .ok (-6) ∧
    splAcc 3 (fun _ => (1:ℝ)) (knotTime fun _ => (1:ℝ)) (fun _ => 1) (fun _ => 0) (knotTime (fun _ => (1:ℝ)) 1) = 0 := by
  constructor
  · simp [pchipSecAcc]
  · unfold splAcc
    rw [zIPDataSeg_knot 3 (by omega) _ (fun i j h1 h2 => knotTime_lt (n := 3) (fun _ _ _ => by norm_num) h1 h2) 1 (by omega),
      Nat.min_eq_left (by omega), splSegAcc_left _ _ _ _ (by norm_num)]
    norm_num

/-! ## Akima -/

/-- **C183.** Akima: the velocity at every section but the first is the velocity of the curve there, and the acceleration at the
first section is that of the curve.

Missing: the first velocity, the inner and the last acceleration, see the theorems below. -/
theorem akSec_partial (n : Nat) (hn : 2 ≤ n) (dt x va : Nat → ℝ) (hdt : ∀ i, 0 < i → i < n → 0 < dt i) :
    (∀ i, 0 < i → i < n → akSecVel n va i = akVel n dt (knotTime dt) x va (knotTime dt i)) ∧
    akSecAcc n dt x va 0 = .ok (akAcc n dt (knotTime dt) x va (knotTime dt 0)) := by
  have hT : ∀ i j, i < j → j < n → knotTime dt i < knotTime dt j := fun i j h1 h2 => knotTime_lt hdt h1 h2
  constructor
  · intro i h0 hi
    unfold akSecVel akVel
    rw [if_neg (by omega), zIPDataSeg_knot n hn _ hT i hi]
    by_cases c : i + 1 < n
    · rw [Nat.min_eq_left (by omega), akSegVel_eq _ _ _ _ (hdt (i+1) (by omega) c).ne', splSegVel_left _ _ _ _ (hdt (i+1) (by omega) c).ne']
    · rw [Nat.min_eq_right (by omega)]
      obtain ⟨m, rfl⟩ : ∃ m, n = m + 2 := ⟨n - 2, by omega⟩
      have : i = m + 1 := by omega
      subst this
      have hd := (hdt (m+1) (by omega) (by omega)).ne'
      rw [show m + 2 - 2 = m by omega, akSegVel_eq _ _ _ _ hd, splSegVel_right _ _ _ _ hd]
  · unfold akSecAcc akAcc
    rw [if_neg (by omega), if_pos (by omega), if_pos rfl, zIPDataSeg_knot n hn _ hT 0 (by omega), Nat.min_eq_left (by omega)]
    have hd := (hdt 1 (by omega) (by omega)).ne'
    rw [akSegAcc_eq _ _ _ _ hd, splSegAcc_left _ _ _ _ hd]
    congr 1
    field_simp
    ring

/-- **C183, violated.** Akima: the velocity at the first section is returned as zero, whatever the velocity of the curve. -/
theorem akSecVel_first_violated (n : Nat) (hn : 2 ≤ n) (dt x va : Nat → ℝ) (hdt : ∀ i, 0 < i → i < n → 0 < dt i) (hv : va 0 ≠ 0) :
    akSecVel n va 0 ≠ akVel n dt (knotTime dt) x va (knotTime dt 0) := by
  unfold akSecVel akVel
  rw [if_pos (Or.inr rfl), zIPDataSeg_knot n hn _ (fun i j h1 h2 => knotTime_lt hdt h1 h2) 0 (by omega), Nat.min_eq_left (by omega),
    akSegVel_eq _ _ _ _ (hdt 1 (by omega) (by omega)).ne', splSegVel_left _ _ _ _ (hdt 1 (by omega) (by omega)).ne']
  exact Ne.symm hv

/-- **C183, violated.** Akima: at an inner section the returned acceleration is meant to be the mean of the accelerations on the left and
on the right, which need not agree; it is not that mean as soon as the velocities at the two ends of the section on the left differ,
because the weights of the two are exchanged. -/
theorem akSecAcc_inner_violated (n : Nat) (dt x va : Nat → ℝ) (hdt : ∀ i, 0 < i → i < n → 0 < dt i) (i : Nat) (h0 : 0 < i)
    (hi : i + 1 < n) (hv : va (i-1) ≠ va i) :
    akSecAcc n dt x va i ≠ .ok ((akSegAcc dt (knotTime dt) x va (i-1) (knotTime dt i) + akSegAcc dt (knotTime dt) x va i (knotTime dt i)) / 2) := by
  obtain ⟨j, rfl⟩ : ∃ j, i = j + 1 := ⟨i - 1, by omega⟩
  have hd1 := (hdt (j+1) (by omega) (by omega)).ne'
  have hd2 := (hdt (j+1+1) (by omega) (by omega)).ne'
  simp only [Nat.add_sub_cancel] at *
  unfold akSecAcc akSecAcc2
  rw [if_neg (by omega), if_pos (by omega), if_neg (by omega)]
  simp only [Nat.add_sub_cancel]
  rw [if_pos (by omega), akSegAcc_eq _ _ _ _ hd1, akSegAcc_eq _ _ _ _ hd2, splSegAcc_right _ _ _ _ hd1, splSegAcc_left _ _ _ _ hd2]
  intro h
  injection h with h
  apply hv
  field_simp at h
  have hp : dt (j+1+1) * dt (j+1) ≠ 0 := mul_ne_zero hd2 hd1
  have hp2 : dt (j+1+1)^2 * dt (j+1) ≠ 0 := mul_ne_zero (pow_ne_zero 2 hd2) hd1
  apply mul_left_cancel₀ hp2
  linarith

/-- **C183.** Akima: by how much the acceleration returned at an inner section misses that mean: by the difference of the velocities at the
two ends of the section on the left over its length.  It is the mean if and only if they are equal. -/
theorem akSecAcc_inner_partial (n : Nat) (dt x va : Nat → ℝ) (hdt : ∀ i, 0 < i → i < n → 0 < dt i) (i : Nat) (h0 : 0 < i)
    (hi : i + 1 < n) :
    akSecAcc n dt x va i = .ok ((akSegAcc dt (knotTime dt) x va (i-1) (knotTime dt i) + akSegAcc dt (knotTime dt) x va i (knotTime dt i)) / 2
      + (va (i-1) - va i) / dt i) := by
  obtain ⟨j, rfl⟩ : ∃ j, i = j + 1 := ⟨i - 1, by omega⟩
  have hd1 := (hdt (j+1) (by omega) (by omega)).ne'
  have hd2 := (hdt (j+1+1) (by omega) (by omega)).ne'
  simp only [Nat.add_sub_cancel] at *
  unfold akSecAcc akSecAcc2
  rw [if_neg (by omega), if_pos (by omega), if_neg (by omega)]
  simp only [Nat.add_sub_cancel]
  rw [if_pos (by omega), akSegAcc_eq _ _ _ _ hd1, akSegAcc_eq _ _ _ _ hd2, splSegAcc_right _ _ _ _ hd1, splSegAcc_left _ _ _ _ hd2]
  congr 1
  field_simp
  ring

/-- **C183, violated.** Akima: the acceleration at the last section reads the time increment of a knot that does not exist. -/
theorem akSecAcc_last_violated (n : Nat) (hn : 0 < n) (dt x va : Nat → ℝ) : akSecAcc n dt x va (n-1) = .ub := by
  unfold akSecAcc akSecAcc2
  rw [if_neg (by omega), if_neg (by omega), if_neg (by omega)]

/-- The hypotheses are met by four knots one second apart. -/
example : ∀ i, 0 < i → i < 4 → (0:ℝ) < (fun _ => (1:ℝ)) i := fun _ _ _ => by norm_num
example : linSecAcc 3 (fun i => (i : ℚ)) 1 = .inf false := by simp [linSecAcc]

end Zm.IP
