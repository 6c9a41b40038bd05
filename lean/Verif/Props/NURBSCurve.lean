import Verif.Props.NURBS

/-! # Properties of NURBS and B-spline curves (C39, C82) -/

set_option linter.unusedSectionVars false

namespace Zm.NURBS
open Zm Finset

section
variable {K : Type*} [Field K] [LinearOrder K] [IsStrictOrderedRing K]
variable {V : Type*} [AddCommGroup V] [Module K V]

theorem forUp_sumV {M : Type*} [AddCommMonoid M] (f : Nat → M) (lo hi : Nat) (h : lo ≤ hi) (a : M) :
    forUp lo hi (fun i v => v + f i) a = a + ∑ i ∈ Ico lo hi, f i := by
  refine forUp_inv (lo := lo) (hi := hi) (fun i v => v + f i) a (P := fun m v => v = a + ∑ i ∈ Ico lo m, f i) h (by simp) ?_
  intro i t h1 h2 ih
  rw [ih, sum_Ico_succ_top h1, add_assoc]

theorem nurbsLoop_spec (order : Nat) (k w : Nat → K) (P : Nat → V) (t : K) (s : Nat) :
    nurbsLoop order k w P t s = (∑ i ∈ Ico (s-order) (s+1), (w i * zBSplineParamBasis k t i order s) • P i, ∑ i ∈ Ico (s-order) (s+1), w i * zBSplineParamBasis k t i order s) := by
  unfold nurbsLoop
  refine forUp_inv (lo := s-order) (hi := s+1) _ ((0, 0) : V × K)
    (P := fun m (v : V × K) => v = (∑ i ∈ Ico (s-order) m, (w i * zBSplineParamBasis k t i order s) • P i, ∑ i ∈ Ico (s-order) m, w i * zBSplineParamBasis k t i order s)) (by omega) (by simp) ?_
  intro i v h1 h2 ih
  simp only
  rw [ih, sum_Ico_succ_top h1, sum_Ico_succ_top h1]

/-! ## C39: geometry of the curves -/

/-- `v` is a convex combination of the control points `lo .. hi-1`. -/
def InHull (P : Nat → V) (lo hi : Nat) (v : V) : Prop :=
  ∃ c : Nat → K, (∀ i, 0 ≤ c i) ∧ ∑ i ∈ Ico lo hi, c i = 1 ∧ v = ∑ i ∈ Ico lo hi, c i • P i

/-- The weighted denominator is at least the smallest weight. -/
theorem den_gt (order : Nat) (k w : Nat → K) (s : Nat) (hs : order ≤ s) (hmono : ∀ i j, i ≤ j → j ≤ s + order + 1 → k i ≤ k j) (hlt : k s < k (s+1))
    (t : K) (h1 : k s ≤ t) (h2 : t ≤ k (s+1)) (m : K) (hw : ∀ i, s - order ≤ i → i ≤ s → m < w i) :
    m < ∑ i ∈ Ico (s-order) (s+1), w i * zBSplineParamBasis k t i order s := by
  have hsum := basis_sum k s order hs (fun i j a b => hmono i j a (by omega)) hlt t
  have hnn := basis_nonneg k s order hmono t h1 h2
  have hle : ∀ i ∈ Ico (s-order) (s+1), m * zBSplineParamBasis k t i order s ≤ w i * zBSplineParamBasis k t i order s := by
    intro i hi
    rw [mem_Ico] at hi
    exact mul_le_mul_of_nonneg_right (hw i (by omega) (by omega)).le (hnn i)
  have hpos : ∃ i ∈ Ico (s-order) (s+1), 0 < zBSplineParamBasis k t i order s := by
    by_contra hc
    push Not at hc
    have : ∑ i ∈ Ico (s-order) (s+1), zBSplineParamBasis k t i order s ≤ 0 := sum_nonpos hc
    rw [hsum] at this
    exact absurd this (not_le.mpr one_pos)
  obtain ⟨i, hi, hp⟩ := hpos
  have : ∑ i ∈ Ico (s-order) (s+1), m * zBSplineParamBasis k t i order s < ∑ i ∈ Ico (s-order) (s+1), w i * zBSplineParamBasis k t i order s := by
    refine sum_lt_sum hle ⟨i, hi, ?_⟩
    rw [mem_Ico] at hi
    exact mul_lt_mul_of_pos_right (hw i (by omega) (by omega)) hp
  rwa [← mul_sum, hsum, mul_one] at this

/-- **C39.** Local convex hull: for weights above the tolerance and a parameter in the interval, the point on a NURBS curve is the
weighted average of the control points `s-order .. s` of its segment. -/
theorem zNURBSVec_hull (tol : K) (htol : 0 ≤ tol) (order nc : Nat) (k w : Nat → K) (hk : Knots order nc k) (hw : ∀ i, i < nc → tol < w i)
    (P : Nat → V) (t : K) (h1 : k order ≤ t) (h2 : t ≤ k nc) :
    ∃ s v, order ≤ s ∧ s < nc ∧ k s ≤ t ∧ t ≤ k (s+1) ∧ zNURBSVec tol order nc k w P t = .ok v ∧ InHull (K := K) P (s-order) (s+1) v := by
  obtain ⟨s, a, b, c, d, e, f, g, _, _⟩ := zBSplineParamSeg_spec order nc k hk t
  have hmono : ∀ i j, i ≤ j → j ≤ s + order + 1 → k i ≤ k j := fun i j x y => hk.mono i j x (by omega)
  have hden := den_gt order k w s b hmono d t (e h1) (g h2) tol (fun i _ hi => hw i (by omega))
  have hnn := basis_nonneg k s order hmono t (e h1) (g h2)
  refine ⟨s, (∑ i ∈ Ico (s-order) (s+1), w i * zBSplineParamBasis k t i order s)⁻¹ • ∑ i ∈ Ico (s-order) (s+1), (w i * zBSplineParamBasis k t i order s) • P i,
    b, c, e h1, g h2, ?_, ?_⟩
  · unfold zNURBSVec
    rw [a]
    simp only [Res.bind]
    rw [nurbsLoop_spec]
    simp only
    rw [if_neg (not_le.mpr (lt_of_lt_of_le hden (le_abs_self _)))]
  · generalize hD : ∑ i ∈ Ico (s-order) (s+1), w i * zBSplineParamBasis k t i order s = D at hden ⊢
    have hDp : 0 < D := lt_of_le_of_lt htol hden
    refine ⟨fun i => if s - order ≤ i ∧ i ≤ s then D⁻¹ * (w i * zBSplineParamBasis k t i order s) else 0, fun i => ?_, ?_, ?_⟩
    · simp only
      split
      · rename_i h
        exact mul_nonneg (inv_nonneg.mpr hDp.le) (mul_nonneg (htol.trans (hw i (by omega)).le) (hnn i))
      · exact le_refl _
    · rw [sum_congr rfl (g := fun i : Nat => D⁻¹ * (w i * zBSplineParamBasis k t i order s)), ← mul_sum, hD, inv_mul_cancel₀ hDp.ne']
      intro i hi
      rw [mem_Ico] at hi
      beta_reduce
      rw [if_pos (by omega)]
    · rw [smul_sum]
      refine sum_congr rfl fun i hi => ?_
      rw [mem_Ico] at hi
      simp only
      rw [if_pos (by omega), smul_smul]

/-- A convex combination of some of the points is one of all. -/
theorem InHull.mono (P : Nat → V) (lo hi n : Nat) (h : hi ≤ n) (v : V) (hv : InHull (K := K) P lo hi v) : InHull (K := K) P 0 n v := by
  obtain ⟨c, h1, h2, h3⟩ := hv
  have hsub : Ico lo hi ⊆ Ico 0 n := by intro i; simp only [mem_Ico]; omega
  refine ⟨fun i => if lo ≤ i ∧ i < hi then c i else 0, fun i => ?_, ?_, ?_⟩
  · simp only; split
    · exact h1 i
    · exact le_refl _
  · rw [← h2]
    refine (sum_subset hsub ?_).symm.trans (sum_congr rfl fun i hi => ?_)
    · intro i _ hn
      rw [mem_Ico] at hn
      exact if_neg hn
    · rw [mem_Ico] at hi; exact if_pos hi
  · rw [h3]
    refine Eq.trans (sum_congr rfl fun i hi => ?_) (sum_subset hsub ?_)
    · rw [mem_Ico] at hi
      simp only
      rw [if_pos hi]
    · intro i _ hn
      rw [mem_Ico] at hn
      simp only
      rw [if_neg hn, zero_smul]

/-- **C39.** Convex hull: every point of the curve is a convex combination of the control points. -/
theorem zNURBSVec_convex (tol : K) (htol : 0 ≤ tol) (order nc : Nat) (k w : Nat → K) (hk : Knots order nc k) (hw : ∀ i, i < nc → tol < w i)
    (P : Nat → V) (t : K) (h1 : k order ≤ t) (h2 : t ≤ k nc) :
    ∃ v, zNURBSVec tol order nc k w P t = .ok v ∧ InHull (K := K) P 0 nc v := by
  obtain ⟨s, v, _, b, _, _, c, d⟩ := zNURBSVec_hull tol htol order nc k w hk hw P t h1 h2
  exact ⟨v, c, d.mono P _ _ nc (by omega) v⟩

/-- **C39.** With unit weights the NURBS curve is the B-spline curve. -/
theorem zNURBSVec_unit (tol : K) (h1 : tol < 1) (order nc : Nat) (k : Nat → K) (hk : Knots order nc k) (P : Nat → V) (t : K) :
    zNURBSVec tol order nc k (fun _ => 1) P t = zBSplineVec order nc k P t := by
  obtain ⟨s, a, b, c, d, _⟩ := zBSplineParamSeg_spec order nc k hk t
  unfold zNURBSVec zBSplineVec
  rw [a]
  simp only [Res.bind]
  have hsum := basis_sum k s order b (fun i j x y => hk.mono i j x (by omega)) d t
  rw [nurbsLoop_spec, forUp_sumV _ _ _ (by omega)]
  simp only [one_mul]
  rw [hsum, if_neg (by rw [abs_one]; exact not_le.mpr h1), inv_one, one_smul, zero_add]

/-- **C39.** B-spline curves lie in the convex hull of the control points of the segment. -/
theorem zBSplineVec_hull (order nc : Nat) (k : Nat → K) (hk : Knots order nc k) (P : Nat → V) (t : K) (h1 : k order ≤ t) (h2 : t ≤ k nc) :
    ∃ s v, order ≤ s ∧ s < nc ∧ k s ≤ t ∧ t ≤ k (s+1) ∧ zBSplineVec order nc k P t = .ok v ∧ InHull (K := K) P (s-order) (s+1) v := by
  have := zNURBSVec_hull 0 (le_refl _) order nc k (fun _ => 1) hk (fun _ _ => one_pos) P t h1 h2
  rwa [zNURBSVec_unit 0 one_pos order nc k hk P t] at this

/-- **C39.** Start point: with clamped knots the curve starts at the first control point. -/
theorem zNURBSVec_start (tol : K) (order nc : Nat) (k w : Nat → K) (hk : Knots order nc k) (hc : ∀ j, j ≤ order → k j = k order)
    (hw : w 0 ≠ 0) (P : Nat → V) (hs : k order < k (order+1)) :
    zNURBSVec tol order nc k w P (k order) = .ok (P 0) := by
  obtain ⟨s, a, b, c, d, e, _⟩ := zBSplineParamSeg_spec order nc k hk (k order)
  have hso : s = order := by
    by_contra hne
    exact absurd (lt_of_lt_of_le hs (hk.mono (order+1) s (by omega) (by omega))) (not_lt.mpr (e (le_refl _)))
  subst hso
  unfold zNURBSVec
  rw [a]
  simp only [Res.bind]
  rw [nurbsLoop_spec]
  have hz : ∀ i, 0 < i → zBSplineParamBasis k (k s) i s s = 0 := by
    intro i hi
    rw [basis_eq_cdb]
    exact cdb_left k s s (fun j _ h => hc j h) i (by omega)
  have h0 : zBSplineParamBasis k (k s) 0 s s = 1 := by
    have := basis_sum k s s (le_refl _) (fun i j x y => hk.mono i j x (by omega)) d (k s)
    rw [Nat.sub_self, sum_eq_sum_Ico_succ_bot (by omega), sum_eq_zero (fun i hi => hz i (by rw [mem_Ico] at hi; omega)), add_zero] at this
    exact this
  simp only [Nat.sub_self]
  have e1 : ∑ i ∈ Ico 0 (s+1), w i * zBSplineParamBasis k (k s) i s s = w 0 := by
    rw [sum_eq_sum_Ico_succ_bot (by omega), h0, mul_one, sum_eq_zero, add_zero]
    intro i hi
    rw [mem_Ico] at hi
    rw [hz i (by omega), mul_zero]
  have e2 : ∑ i ∈ Ico 0 (s+1), (w i * zBSplineParamBasis k (k s) i s s) • P i = w 0 • P 0 := by
    rw [sum_eq_sum_Ico_succ_bot (by omega), h0, mul_one, sum_eq_zero, add_zero]
    intro i hi
    rw [mem_Ico] at hi
    rw [hz i (by omega), mul_zero, zero_smul]
  rw [e1, e2]
  by_cases ht : |w 0| ≤ tol
  · rw [if_pos ht]
  · rw [if_neg ht, smul_smul, inv_mul_cancel₀ hw, one_smul]

/-- **C39.** End point: with clamped knots the curve ends at the last control point (whose weight must exceed the tolerance). -/
theorem zNURBSVec_end (tol : K) (htol : 0 ≤ tol) (order nc : Nat) (k w : Nat → K) (hk : Knots order nc k) (hc : ∀ j, nc ≤ j → j < nc + order + 1 → k j = k nc)
    (hw : tol < |w (nc-1)|) (P : Nat → V) (hs : k (nc-1) < k nc) :
    zNURBSVec tol order nc k w P (k nc) = .ok (P (nc-1)) := by
  obtain ⟨s, a, b, c, d, e, _, _, _, f⟩ := zBSplineParamSeg_spec order nc k hk (k nc)
  have hso : s + 1 = nc := by
    by_contra hne
    exact absurd (lt_of_le_of_lt (hk.mono (s+1) (nc-1) (by omega) (by omega)) hs) (not_lt.mpr (f (le_refl _)).ge)
  subst hso
  simp only [Nat.add_sub_cancel] at *
  unfold zNURBSVec
  rw [a]
  simp only [Res.bind]
  rw [nurbsLoop_spec]
  have hz : ∀ i, i < s → zBSplineParamBasis k (k (s+1)) i order s = 0 := by
    intro i hi
    rw [basis_eq_cdb]
    exact cdb_right k s order (fun j h1 h2 => hc j h1 (by omega)) i hi
  have h0 : zBSplineParamBasis k (k (s+1)) s order s = 1 := by
    have := basis_sum k s order b (fun i j x y => hk.mono i j x (by omega)) d (k (s+1))
    rw [sum_Ico_succ_top (by omega), sum_eq_zero (fun i hi => hz i (by rw [mem_Ico] at hi; omega)), zero_add] at this
    exact this
  have e1 : ∑ i ∈ Ico (s-order) (s+1), w i * zBSplineParamBasis k (k (s+1)) i order s = w s := by
    rw [sum_Ico_succ_top (by omega), h0, mul_one, sum_eq_zero, zero_add]
    intro i hi
    rw [mem_Ico] at hi
    rw [hz i (by omega), mul_zero]
  have e2 : ∑ i ∈ Ico (s-order) (s+1), (w i * zBSplineParamBasis k (k (s+1)) i order s) • P i = w s • P s := by
    rw [sum_Ico_succ_top (by omega), h0, mul_one, sum_eq_zero, zero_add]
    intro i hi
    rw [mem_Ico] at hi
    rw [hz i (by omega), mul_zero, zero_smul]
  rw [e1, e2]
  rw [if_neg (not_le.mpr hw), smul_smul, inv_mul_cancel₀ (abs_pos.mp (lt_of_le_of_lt htol hw)), one_smul]

/-- **C39.** The curve created by the library (initialised knots) starts at the first and ends at the last control point. -/
theorem zNURBSVec_init_ends (tol : K) (htol : 0 ≤ tol) (order nc : Nat) (h : order < nc) (k0 w : Nat → K) (P : Nat → V) (hw0 : w 0 ≠ 0) (hw : tol < |w (nc-1)|) :
    zNURBSVec tol order nc (zBSplineParamKnotInit order nc k0) w P 0 = .ok (P 0) ∧
    zNURBSVec tol order nc (zBSplineParamKnotInit order nc k0) w P ((nc - order : Nat) : K) = .ok (P (nc-1)) := by
  obtain ⟨hk, h1, h2⟩ := zBSplineParamKnotInit_knots order nc h k0
  have s1 : zBSplineParamKnotInit order nc k0 order < zBSplineParamKnotInit order nc k0 (order+1) := by
    rw [zBSplineParamKnotInit_spec order nc h.le k0 order (by omega), zBSplineParamKnotInit_spec order nc h.le k0 (order+1) (by omega)]
    exact_mod_cast (by unfold clamped; omega : clamped order nc order < clamped order nc (order+1))
  have s2 : zBSplineParamKnotInit order nc k0 (nc-1) < zBSplineParamKnotInit order nc k0 nc := by
    rw [zBSplineParamKnotInit_spec order nc h.le k0 (nc-1) (by omega), zBSplineParamKnotInit_spec order nc h.le k0 nc (by omega)]
    exact_mod_cast (by unfold clamped; omega : clamped order nc (nc-1) < clamped order nc nc)
  constructor
  · have := zNURBSVec_start tol order nc _ w hk (fun j hj => by rw [h1 j hj, h1 order (le_refl _)]) hw0 P s1
    rwa [h1 order (le_refl _)] at this
  · have := zNURBSVec_end tol htol order nc _ w hk (fun j a b => by rw [h2 j a (by omega), h2 nc (le_refl _) (by omega)]) hw P s2
    rwa [h2 nc (le_refl _) (by omega)] at this

end

/-! ## C82: derivatives of the curves -/

theorem basis_contDiff (k : Nat → ℝ) (s i r : Nat) : ContDiff ℝ ⊤ (fun t => zBSplineParamBasis k t i r s) := by
  have : (fun t => zBSplineParamBasis k t i r s) = fun t => cdb k s t i r := by funext t; exact basis_eq_cdb k s t i r
  rw [this]
  clear this
  induction r generalizing i with
  | zero => unfold cdb; exact contDiff_const
  | succ r ih =>
    have hf : (fun t => cdb k s t i (r+1)) = fun t => (t - k i) / (k (i+(r+1)) - k i) * cdb k s t i r +
        (k (i+(r+1)+1) - t) / (k (i+(r+1)+1) - k (i+1)) * cdb k s t (i+1) r := by
      funext t; conv_lhs => unfold cdb
    rw [hf]
    exact (((contDiff_id.sub contDiff_const).div_const _).mul (ih i)).add (((contDiff_const.sub contDiff_id).div_const _).mul (ih (i+1)))

theorem basisDiff_iteratedDeriv (order : Nat) (k : Nat → ℝ) (s r i d : Nat) (hd : d ≤ order + 1) (hmono : ∀ a b, a ≤ b → b ≤ i + r + 1 → k a ≤ k b) :
    iteratedDeriv d (fun t => zBSplineParamBasis k t i r s) = fun t => zBSplineParamBasisDiff order k t i r s d := by
  induction d with
  | zero => funext t; rw [iteratedDeriv_zero]; unfold zBSplineParamBasisDiff; rfl
  | succ d ih =>
    rw [iteratedDeriv_succ, ih (by omega)]
    funext t
    exact (basisDiff_hasDerivAt order k s r i d (by omega) hmono t).deriv

/-- Combination of the basis functions of a segment with fixed coefficients: derivatives. -/
theorem comb_iteratedDeriv (order : Nat) (k c : Nat → ℝ) (s d : Nat) (hd : d ≤ order + 1) (hmono : ∀ a b, a ≤ b → b ≤ s + order + 1 → k a ≤ k b) (t : ℝ) :
    iteratedDeriv d (fun t => ∑ i ∈ Ico (s-order) (s+1), c i * zBSplineParamBasis k t i order s) t =
      ∑ i ∈ Ico (s-order) (s+1), c i * zBSplineParamBasisDiff order k t i order s d := by
  induction d generalizing t with
  | zero => rw [iteratedDeriv_zero]; unfold zBSplineParamBasisDiff; rfl
  | succ d ih =>
    rw [iteratedDeriv_succ]
    have : iteratedDeriv d (fun t => ∑ i ∈ Ico (s-order) (s+1), c i * zBSplineParamBasis k t i order s) =
      fun t => ∑ i ∈ Ico (s-order) (s+1), c i * zBSplineParamBasisDiff order k t i order s d := by funext t; exact ih (by omega) t
    rw [this]
    refine HasDerivAt.deriv (HasDerivAt.fun_sum fun i hi => ?_)
    rw [mem_Ico] at hi
    exact (basisDiff_hasDerivAt order k s order i d (by omega) (fun a b x y => hmono a b x (by omega)) t).const_mul (c i)

theorem comb_contDiff (order : Nat) (k c : Nat → ℝ) (s : Nat) :
    ContDiff ℝ ⊤ (fun t => ∑ i ∈ Ico (s-order) (s+1), c i * zBSplineParamBasis k t i order s) :=
  ContDiff.sum fun i _ => contDiff_const.mul (basis_contDiff k s i order)

/-- Segment-wise numerator. -/
noncomputable def num (order : Nat) (k w P : Nat → ℝ) (s : Nat) (t : ℝ) : ℝ := ∑ i ∈ Ico (s-order) (s+1), (w i * P i) * zBSplineParamBasis k t i order s
/-- Segment-wise denominator. -/
noncomputable def den (order : Nat) (k w : Nat → ℝ) (s : Nat) (t : ℝ) : ℝ := ∑ i ∈ Ico (s-order) (s+1), w i * zBSplineParamBasis k t i order s

theorem nurbsDiffAt_succ (tol : ℝ) (order : Nat) (k w P : Nat → ℝ) (t : ℝ) (s d : Nat) (hden : tol < |den order k w s t|) :
    nurbsDiffAt tol order k w P t s (d+1) = (den order k w s t)⁻¹ *
      (∑ i ∈ Ico (s-order) (s+1), (w i * P i) * zBSplineParamBasisDiff order k t i order s (d+1) -
       ∑ i ∈ range (d+1), ((d+1).choose (i+1) : ℝ) * zNURBSDenDiff order k w t s (i+1) * nurbsDiffAt tol order k w P t s (d-i)) := by
  rw [nurbsDiffAt]
  have e : forUp (s - order) (s+1) (fun i (a : ℝ × ℝ) =>
      (a.1 + (w i * zBSplineParamBasisDiff order k t i order s (d+1)) • P i, a.2 + w i * zBSplineParamBasis k t i order s)) (0, 0) =
      (∑ i ∈ Ico (s-order) (s+1), (w i * P i) * zBSplineParamBasisDiff order k t i order s (d+1), den order k w s t) := by
    unfold den
    refine forUp_inv (lo := s-order) (hi := s+1) _ ((0, 0) : ℝ × ℝ)
      (P := fun m (v : ℝ × ℝ) => v = (∑ i ∈ Ico (s-order) m, (w i * P i) * zBSplineParamBasisDiff order k t i order s (d+1), ∑ i ∈ Ico (s-order) m, w i * zBSplineParamBasis k t i order s)) (by omega) (by simp) ?_
    intro i v h1 h2 ih
    rw [ih, sum_Ico_succ_top h1, sum_Ico_succ_top h1, smul_eq_mul]
    simp only [Prod.mk.injEq, and_true]
    ring
  simp only
  rw [e]
  simp only
  rw [if_neg (not_le.mpr hden), smul_eq_mul]
  congr 1
  have hfold : ∀ (l : List Nat) (a : ℝ), (∀ i ∈ l, i ≤ d) →
      l.foldl (fun v i => v + (-(Misc.zCombination ((d+1 : Nat) : Int) ((i+1 : Nat) : Int) * zNURBSDenDiff order k w t s (i+1))) • nurbsDiffAt tol order k w P t s (d - i)) a =
      a - (l.map fun i => ((d+1).choose (i+1) : ℝ) * zNURBSDenDiff order k w t s (i+1) * nurbsDiffAt tol order k w P t s (d-i)).sum := by
    intro l
    induction l with
    | nil => intro a _; simp
    | cons x l ih =>
      intro a hl
      rw [List.foldl_cons, ih _ (fun i hi => hl i (List.mem_cons_of_mem _ hi)), List.map_cons, List.sum_cons,
        Misc.zCombination_eq (d+1) (x+1) (by have := hl x (List.mem_cons_self ..); omega), smul_eq_mul]
      ring
  have hatt : ∀ (f : ℝ → Nat → ℝ) (l : List Nat) (a : ℝ), l.attach.foldl (fun v (x : {x // x ∈ l}) => f v x.1) a = l.foldl f a := by
    intro f l a
    exact List.foldl_subtype (by intros; rfl) |>.trans (by rw [List.unattach_attach])
  refine (hatt (fun v i => v + (-(Misc.zCombination ((d+1 : Nat) : Int) ((i+1 : Nat) : Int) * zNURBSDenDiff order k w t s (i+1))) • nurbsDiffAt tol order k w P t s (d - i)) _ _).trans ?_
  rw [hfold _ _ (fun i hi => by rw [List.mem_range] at hi; omega)]
  congr 1

theorem denDiff_eq (order : Nat) (k w : Nat → ℝ) (s d : Nat) (hd : d ≤ order + 1) (hmono : ∀ a b, a ≤ b → b ≤ s + order + 1 → k a ≤ k b) (t : ℝ) :
    zNURBSDenDiff order k w t s d = iteratedDeriv d (den order k w s) t := by
  have := comb_iteratedDeriv order k w s d hd hmono t
  unfold den zNURBSDenDiff
  rw [this, forUp_sumV _ _ _ (by omega), zero_add]

/-- The derivative routine in a fixed segment returns the iterated derivative of the quotient. -/
theorem nurbsDiffAt_correct (tol : ℝ) (htol : 0 ≤ tol) (order : Nat) (k w P : Nat → ℝ) (s : Nat) (hmono : ∀ a b, a ≤ b → b ≤ s + order + 1 → k a ≤ k b)
    (t : ℝ) (hden : tol < |den order k w s t|) (d : Nat) (hd : d ≤ order + 1) :
    nurbsDiffAt tol order k w P t s d = iteratedDeriv d (fun t => num order k w P s t / den order k w s t) t := by
  induction d using Nat.strong_induction_on with
  | _ d ih =>
  have hne : den order k w s t ≠ 0 := abs_pos.mp (lt_of_le_of_lt htol hden)
  cases d with
  | zero =>
    rw [iteratedDeriv_zero, nurbsDiffAt]
    unfold nurbsAt
    rw [nurbsLoop_spec]
    simp only
    rw [show ∑ i ∈ Ico (s-order) (s+1), w i * zBSplineParamBasis k t i order s = den order k w s t from rfl, if_neg (not_le.mpr hden), smul_eq_mul, div_eq_inv_mul]
    congr 1
    unfold num
    refine sum_congr rfl fun i _ => ?_
    rw [smul_eq_mul]; ring
  | succ d =>
    rw [nurbsDiffAt_succ tol order k w P t s d hden]
    have hcn : ContDiff ℝ ⊤ (num order k w P s) := comb_contDiff order k (fun i => w i * P i) s
    have hcd : ContDiff ℝ ⊤ (den order k w s) := comb_contDiff order k w s
    have hcq : ContDiffAt ℝ (d+1 : ℕ) (fun t => num order k w P s t / den order k w s t) t :=
      (hcn.contDiffAt.div hcd.contDiffAt hne).of_le (by exact_mod_cast le_top)
    have hcd' : ContDiffAt ℝ (d+1 : ℕ) (den order k w s) t := hcd.contDiffAt.of_le (by exact_mod_cast le_top)
    have hev : (fun u => den order k w s u * (num order k w P s u / den order k w s u)) =ᶠ[nhds t] num order k w P s := by
      have := hcd.continuous.continuousAt.eventually_ne hne
      filter_upwards [this] with u hu
      field_simp
    have hl := iteratedDeriv_fun_mul (n := d+1) (x := t) hcd' hcq
    rw [hev.iteratedDeriv_eq] at hl
    have hnum := comb_iteratedDeriv order k (fun i => w i * P i) s (d+1) hd hmono t
    rw [show (fun t => ∑ i ∈ Ico (s-order) (s+1), (w i * P i) * zBSplineParamBasis k t i order s) = num order k w P s from rfl] at hnum
    rw [← hnum, hl, sum_range_succ' _ (d+1)]
    have e : ∑ i ∈ range (d+1), ((d+1).choose (i+1) : ℝ) * zNURBSDenDiff order k w t s (i+1) * nurbsDiffAt tol order k w P t s (d-i) =
        ∑ i ∈ range (d+1), ((d+1).choose (i+1) : ℝ) * iteratedDeriv (i+1) (den order k w s) t * iteratedDeriv (d+1-(i+1)) (fun t => num order k w P s t / den order k w s t) t := by
      refine sum_congr rfl fun i hi => ?_
      rw [mem_range] at hi
      rw [denDiff_eq order k w s (i+1) (by omega) hmono t, ih (d-i) (by omega) (by omega), Nat.add_sub_add_right]
    rw [e, add_sub_cancel_left, Nat.choose_zero_right, Nat.cast_one, one_mul, iteratedDeriv_zero, Nat.sub_zero, ← mul_assoc, inv_mul_cancel₀ hne, one_mul]

/-- The segment search of a parameter inside an open segment finds that segment. -/
theorem zBSplineParamSeg_eq (order nc : Nat) (k : Nat → ℝ) (hk : Knots order nc k) (s : Nat) (h1 : order ≤ s) (h2 : s < nc) (t : ℝ) (h3 : k s < t) (h4 : t < k (s+1)) :
    zBSplineParamSeg order nc k t = .ok s := by
  obtain ⟨s', a, b, c, d, e, f, g, _, _⟩ := zBSplineParamSeg_spec order nc k hk t
  have g1 := e ((hk.mono order s h1 (by omega)).trans h3.le)
  have g2 := g (h4.le.trans (hk.mono (s+1) nc (by omega) (by omega)))
  rw [a]
  congr 1
  rcases Nat.lt_trichotomy s' s with h | h | h
  · exact absurd (lt_of_lt_of_le h3 (g2.trans (hk.mono (s'+1) s (by omega) (by omega)))) (lt_irrefl _)
  · exact h
  · exact absurd (lt_of_lt_of_le h4 ((hk.mono (s+1) s' (by omega) (by omega)).trans g1)) (lt_irrefl _)

/-- **C82.** For weights above the tolerance and a parameter strictly inside a segment, the value for `diff` returned by
`zNURBSVecDiff` is the `diff`-th derivative of the curve `zNURBSVec` (each component), for every `diff` up to the order plus one. -/
theorem zNURBSVecDiff_correct (tol : ℝ) (htol : 0 ≤ tol) (order nc : Nat) (k w P : Nat → ℝ) (hk : Knots order nc k) (hw : ∀ i, i < nc → tol < w i)
    (curve : ℝ → ℝ) (hcurve : ∀ t, k order ≤ t → t ≤ k nc → zNURBSVec tol order nc k w P t = .ok (curve t))
    (s : Nat) (h1 : order ≤ s) (h2 : s < nc) (t : ℝ) (h3 : k s < t) (h4 : t < k (s+1)) (d : Nat) (hd : d ≤ order + 1) :
    zNURBSVecDiff tol order nc k w P t d = .ok (iteratedDeriv d curve t) := by
  have hmono : ∀ a b, a ≤ b → b ≤ s + order + 1 → k a ≤ k b := fun a b x y => hk.mono a b x (by omega)
  have hden : ∀ u, k s < u → u < k (s+1) → tol < |den order k w s u| := fun u a b =>
    lt_of_lt_of_le (den_gt order k w s h1 hmono (h3.trans h4) u a.le b.le tol (fun i _ hi => hw i (by omega))) (le_abs_self _)
  unfold zNURBSVecDiff
  rw [if_neg (by omega), zBSplineParamSeg_eq order nc k hk s h1 h2 t h3 h4]
  simp only [Res.bind]
  rw [nurbsDiffAt_correct tol htol order k w P s hmono t (hden t h3 h4) d hd]
  congr 1
  refine Filter.EventuallyEq.iteratedDeriv_eq d ?_
  filter_upwards [Ioo_mem_nhds h3 h4] with u hu
  have hc := hcurve u ((hk.mono order s h1 (by omega)).trans hu.1.le) (hu.2.le.trans (hk.mono (s+1) nc (by omega) (by omega)))
  unfold zNURBSVec at hc
  rw [zBSplineParamSeg_eq order nc k hk s h1 h2 u hu.1 hu.2] at hc
  simp only [Res.bind, Res.ok.injEq] at hc
  rw [← hc, nurbsLoop_spec]
  simp only
  rw [show ∑ i ∈ Ico (s-order) (s+1), w i * zBSplineParamBasis k u i order s = den order k w s u from rfl, if_neg (not_le.mpr (hden u hu.1 hu.2)), smul_eq_mul, div_eq_inv_mul]
  congr 1
  unfold num
  refine sum_congr rfl fun i _ => ?_
  rw [smul_eq_mul]; ring

/-- **C82.** Orders of differentiation beyond the order plus one are refused. -/
theorem zNURBSVecDiff_refused (tol : ℝ) (order nc : Nat) (k w P : Nat → ℝ) (t : ℝ) (d : Nat) (hd : order + 1 < d) :
    zNURBSVecDiff tol order nc k w P t d = .fail := by
  unfold zNURBSVecDiff; rw [if_pos hd]

/-- **C82.** The value returned by `zBSplineVecDiff` is the derivative of the B-spline curve, for every order of differentiation
up to the order plus one. -/
theorem zBSplineVecDiff_correct (order nc : Nat) (k P : Nat → ℝ) (hk : Knots order nc k)
    (curve : ℝ → ℝ) (hcurve : ∀ t, k order ≤ t → t ≤ k nc → zBSplineVec order nc k P t = .ok (curve t))
    (s : Nat) (h1 : order ≤ s) (h2 : s < nc) (t : ℝ) (h3 : k s < t) (h4 : t < k (s+1)) (d : Nat) :
    zBSplineVecDiff order nc k P t d = .ok (iteratedDeriv d curve t) := by
  have hmono : ∀ a b, a ≤ b → b ≤ s + order + 1 → k a ≤ k b := fun a b x y => hk.mono a b x (by omega)
  have hval : curve =ᶠ[nhds t] fun u => ∑ i ∈ Ico (s-order) (s+1), P i * zBSplineParamBasis k u i order s := by
    filter_upwards [Ioo_mem_nhds h3 h4] with u hu
    have hc := hcurve u ((hk.mono order s h1 (by omega)).trans hu.1.le) (hu.2.le.trans (hk.mono (s+1) nc (by omega) (by omega)))
    unfold zBSplineVec at hc
    rw [zBSplineParamSeg_eq order nc k hk s h1 h2 u hu.1 hu.2] at hc
    simp only [Res.bind, Res.ok.injEq] at hc
    rw [← hc, forUp_sumV _ _ _ (by omega), zero_add]
    refine sum_congr rfl fun i _ => ?_
    rw [smul_eq_mul, mul_comm]
  rw [hval.iteratedDeriv_eq]
  unfold zBSplineVecDiff
  by_cases h0 : d = 0
  · subst h0
    rw [if_pos rfl, iteratedDeriv_zero]
    unfold zBSplineVec
    rw [zBSplineParamSeg_eq order nc k hk s h1 h2 t h3 h4]
    simp only [Res.bind]
    rw [forUp_sumV _ _ _ (by omega), zero_add]
    congr 1
    refine sum_congr rfl fun i _ => ?_
    rw [smul_eq_mul, mul_comm]
  · rw [if_neg h0]
    by_cases hd : d > order + 1
    · rw [if_pos hd]
      congr 1
      obtain ⟨e, rfl⟩ : ∃ e, d = e + (order + 1) := ⟨d - (order+1), by omega⟩
      have hz : ∀ m r i, r < m → m ≤ order + 1 → ∀ u, zBSplineParamBasisDiff order k u i r s m = 0 := by
        intro m
        induction m with
        | zero => intro r i h; omega
        | succ m ih =>
          intro r i h hm u
          cases r with
          | zero => exact basisDiff_zero_order ..
          | succ r => rw [basisDiff_succ order k u i r s m (by omega), ih r i (by omega) (by omega), ih r (i+1) (by omega) (by omega)]; simp
      have : iteratedDeriv (order+1) (fun u => ∑ i ∈ Ico (s-order) (s+1), P i * zBSplineParamBasis k u i order s) = fun _ => 0 := by
        funext u
        rw [comb_iteratedDeriv order k P s (order+1) (le_refl _) hmono u]
        refine sum_eq_zero fun i _ => ?_
        rw [hz (order+1) order i (by omega) (le_refl _) u, mul_zero]
      rw [iteratedDeriv_eq_iterate] at this
      rw [iteratedDeriv_eq_iterate, Function.iterate_add_apply, this]
      clear this hz hd h0 hval
      induction e with
      | zero => rfl
      | succ e ih => rw [Function.iterate_succ_apply, deriv_const']; exact ih
    · rw [if_neg hd, zBSplineParamSeg_eq order nc k hk s h1 h2 t h3 h4]
      simp only [Res.bind]
      rw [forUp_sumV _ _ _ (by omega), zero_add, comb_iteratedDeriv order k P s d (by omega) hmono t]
      congr 1
      refine sum_congr rfl fun i _ => ?_
      rw [smul_eq_mul, mul_comm]

/-! ## Concrete instances -/

/-- A quadratic curve with five control points: the hypotheses of the theorems above are met. -/
example : Knots 2 5 (zBSplineParamKnotInit 2 5 (fun _ => (7:ℚ))) := (zBSplineParamKnotInit_knots 2 5 (by omega) _).1
example : (List.range 8).map (clamped 2 5) = [0,0,0,1,2,3,3,3] := by decide
example : zBSplineParamSeg 1 3 (fun j => (clamped 1 3 j : ℚ)) (3/2) = .ok 2 := by
  norm_num [zBSplineParamSeg, segLoop, skipUp, skipDown, Res.bind, clamped]
example : zBSplineVec 1 3 (fun j => (clamped 1 3 j : ℚ)) (fun i => [10, 20, 50].getD i 0) (3/2) = .ok (35:ℚ) := by
  norm_num [zBSplineVec, zBSplineParamSeg, segLoop, skipUp, skipDown, Res.bind, clamped, forUp, forN, zBSplineParamBasis]
example : zBSplineVecDiff 1 3 (fun j => (clamped 1 3 j : ℚ)) (fun i => [10, 20, 50].getD i 0) (3/2) 1 = .ok (30:ℚ) := by
  norm_num [zBSplineVecDiff, zBSplineParamSeg, segLoop, skipUp, skipDown, Res.bind, clamped, forUp, forN, zBSplineParamBasis, zBSplineParamBasisDiff]

end Zm.NURBS
