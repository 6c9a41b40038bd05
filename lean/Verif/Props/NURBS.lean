import Verif.Model.NURBS
import Verif.Props.Misc
import Mathlib.Analysis.Calculus.IteratedDeriv.Lemmas
import Mathlib.Analysis.Calculus.ContDiff.Operations
import Mathlib.Analysis.Calculus.Deriv.Mul
import Mathlib.Analysis.Calculus.Deriv.Add
import Mathlib.Tactic.Linarith
import Mathlib.Tactic.FieldSimp
import Mathlib.Tactic.Ring

/-! # Properties of B-spline parameters and NURBS curves (C37, C38, C39, C82) -/

set_option linter.unusedSectionVars false

namespace Zm.NURBS
open Zm Finset

section
variable {K : Type*} [Field K] [LinearOrder K] [IsStrictOrderedRing K]

/-! ## C37: knots and segment search -/

/-- Clamped uniform knots: 0 up to index `order`, then counting up to `nc - order` at index `nc`, then constant. -/
def clamped (order nc j : Nat) : Nat := min (j - order) (nc - order)

/-- **C37.** `zBSplineParamKnotInit` produces the clamped uniform knot vector. -/
theorem zBSplineParamKnotInit_spec (order nc : Nat) (h : order ≤ nc) (k : Nat → K) (j : Nat) (hj : j < nc + order + 1) :
    zBSplineParamKnotInit order nc k j = (clamped order nc j : K) := by
  unfold zBSplineParamKnotInit
  have e1 : ∀ j, j < order + 1 → forUp 0 (order+1) (fun j k => set1 k j 0) k j = (clamped order nc j : K) := by
    intro j hj
    rw [forUp_set1 (lo := 0) (hi := order+1) (fun _ _ => (0:K)) k (fun _ => 0) (fun _ _ _ _ _ _ => rfl)]
    simp only
    rw [if_pos (by omega)]
    unfold clamped
    rw [show j - order = 0 by omega]; simp
  generalize forUp 0 (order+1) (fun j k => set1 k j 0) k = k1 at e1
  have e2 : ∀ j, j < nc + 1 → forUp (order+1) (nc+1) (fun j k => set1 k j (k (j-1) + 1)) k1 j = (clamped order nc j : K) := by
    refine forUp_inv (lo := order+1) (hi := nc+1) _ k1 (P := fun m k2 => ∀ j, j < m → k2 j = (clamped order nc j : K)) (by omega) e1 ?_
    intro i t h1 h2 ih j hj
    by_cases hji : j = i
    · subst hji
      rw [set1_same, ih (j-1) (by omega)]
      unfold clamped
      rw [show min (j - order) (nc - order) = min (j - 1 - order) (nc - order) + 1 by omega]
      push_cast; rfl
    · rw [set1_ne _ _ hji]; exact ih j (by omega)
  generalize forUp (order+1) (nc+1) (fun j k => set1 k j (k (j-1) + 1)) k1 = k2 at e2
  rw [show max (order+1) (nc+1) = nc + 1 by omega]
  refine forUp_inv (lo := nc+1) (hi := nc+order+1) _ k2 (P := fun m k2 => ∀ j, j < m → k2 j = (clamped order nc j : K)) (by omega) e2 ?_ j hj
  intro i t h1 h2 ih j hj
  by_cases hji : j = i
  · subst hji
    rw [set1_same, ih (j-1) (by omega)]
    unfold clamped
    rw [show min (j - order) (nc - order) = min (j - 1 - order) (nc - order) by omega]
  · rw [set1_ne _ _ hji]; exact ih j (by omega)

/-- A knot vector the functions accept: non-decreasing with a non-empty parameter interval. -/
structure Knots (order nc : Nat) (k : Nat → K) : Prop where
  mono : ∀ i j, i ≤ j → j < nc + order + 1 → k i ≤ k j
  pos : k order < k nc
  le : order ≤ nc

/-- **C37.** The initialised knots are non-decreasing and clamped with multiplicity `order+1` at both ends, if there are more
control points than the order (which `zNURBSCreate` checks). -/
theorem zBSplineParamKnotInit_knots (order nc : Nat) (h : order < nc) (k : Nat → K) :
    Knots order nc (zBSplineParamKnotInit order nc k) ∧
    (∀ j, j ≤ order → zBSplineParamKnotInit order nc k j = 0) ∧
    (∀ j, nc ≤ j → j ≤ nc + order → zBSplineParamKnotInit order nc k j = ((nc - order : Nat) : K)) := by
  refine ⟨⟨fun i j hij hj => ?_, ?_, h.le⟩, fun j hj => ?_, fun j h1 h2 => ?_⟩
  · rw [zBSplineParamKnotInit_spec order nc h.le k i (by omega), zBSplineParamKnotInit_spec order nc h.le k j hj]
    exact_mod_cast (by unfold clamped; omega : clamped order nc i ≤ clamped order nc j)
  · rw [zBSplineParamKnotInit_spec order nc h.le k order (by omega), zBSplineParamKnotInit_spec order nc h.le k nc (by omega)]
    exact_mod_cast (by unfold clamped; omega : clamped order nc order < clamped order nc nc)
  · rw [zBSplineParamKnotInit_spec order nc h.le k j (by omega)]
    unfold clamped
    rw [show min (j - order) (nc - order) = 0 by omega]; simp
  · rw [zBSplineParamKnotInit_spec order nc h.le k j (by omega)]
    unfold clamped
    rw [show min (j - order) (nc - order) = nc - order by omega]

/-- **C37.** Normalisation maps the first knot to 0 and the last to 1 by an affine map. -/
theorem zBSplineParamKnotNormalize_spec (tol : K) (size : Nat) (hs : 0 < size) (k : Nat → K) (h : tol < |k (size-1) - k 0|) (j : Nat) (hj : j < size) :
    zBSplineParamKnotNormalize tol size k j = (k j - k 0) / (k (size-1) - k 0) := by
  unfold zBSplineParamKnotNormalize
  have e : forUp 0 size (fun j v => set1 v j (v j + -k 0)) k = fun j => if 0 ≤ j ∧ j < size then k j + -k 0 else k j := by
    refine forUp_set1 (lo := 0) (hi := size) (fun j v => v j + -k 0) k (fun j => k j + -k 0) ?_
    intro i v h1 h2 h3 h4
    rw [h4 i (by omega)]
  rw [e]
  simp only [Nat.zero_le, true_and]
  rw [if_pos (show size - 1 < size by omega), ← sub_eq_add_neg, if_neg (not_le.mpr h)]
  have e2 := forUp_set1 (lo := 0) (hi := size) (fun j v => v j / (k (size-1) - k 0)) (fun j => if j < size then k j + -k 0 else k j)
    (fun j => (k j - k 0) / (k (size-1) - k 0)) (by
      intro i v h1 h2 h3 h4
      rw [h4 i (by omega), if_pos h2, ← sub_eq_add_neg])
  rw [e2]
  simp only
  rw [if_pos (by omega)]

/-- **C37.** Scaling maps the first knot to `s` and the last to `e` by an affine map. -/
theorem zBSplineParamKnotScale_spec (tol : K) (size : Nat) (hs : 0 < size) (k : Nat → K) (h : tol < |k (size-1) - k 0|) (s e : K) (j : Nat) (hj : j < size) :
    zBSplineParamKnotScale tol size k s e j = s + (k j - k 0) / (k (size-1) - k 0) * (e - s) := by
  unfold zBSplineParamKnotScale
  have e2 := forUp_set1 (lo := 0) (hi := size) (fun j v => s + v j * (e - s)) (zBSplineParamKnotNormalize tol size k)
    (fun j => s + zBSplineParamKnotNormalize tol size k j * (e - s)) (by
      intro i v h1 h2 h3 h4
      rw [h4 i (by omega)])
  rw [e2]
  simp only
  rw [if_pos (by omega), zBSplineParamKnotNormalize_spec tol size hs k h j hj]

theorem skipUp_spec (size : Nat) (k : Nat → K) (fuel i j : Nat) (hij : i < j) (hj : j < size) (hf : j - i ≤ fuel)
    (hmono : ∀ a b, a ≤ b → b < size → k a ≤ k b) (hlt : k i < k j) :
    ∃ i', skipUp size k fuel i = .ok i' ∧ i ≤ i' ∧ i' < j ∧ k i' = k i ∧ k i' < k (i'+1) := by
  induction fuel generalizing i with
  | zero => omega
  | succ fuel ih =>
    unfold skipUp
    rw [if_pos (by omega)]
    by_cases h : k (i+1) = k i
    · rw [if_pos h]
      have hne : i + 1 ≠ j := by rintro rfl; exact absurd h hlt.ne'
      obtain ⟨i', a, b, c, d, e⟩ := ih (i+1) (by omega) (by omega) (by rw [h]; exact hlt)
      exact ⟨i', a, by omega, c, by rw [d, h], e⟩
    · rw [if_neg h]
      exact ⟨i, rfl, le_refl _, hij, rfl, lt_of_le_of_ne (hmono i (i+1) (by omega) (by omega)) (Ne.symm h)⟩

theorem skipDown_spec (size : Nat) (k : Nat → K) (fuel i j : Nat) (hij : i < j) (hj : j < size) (hf : j - i ≤ fuel)
    (hmono : ∀ a b, a ≤ b → b < size → k a ≤ k b) (hlt : k i < k j) :
    ∃ j', skipDown k fuel j = .ok j' ∧ j' ≤ j ∧ i < j' ∧ k j' = k j ∧ k (j'-1) < k j' := by
  induction fuel generalizing j with
  | zero => omega
  | succ fuel ih =>
    unfold skipDown
    rw [if_pos (by omega)]
    by_cases h : k (j-1) = k j
    · rw [if_pos h]
      have hne : j - 1 ≠ i := by rintro rfl; exact absurd h hlt.ne
      obtain ⟨j', a, b, c, d, e⟩ := ih (j-1) (by omega) (by omega) (by omega) (by rw [h]; exact hlt)
      exact ⟨j', a, by omega, c, by rw [d, h], e⟩
    · rw [if_neg h]
      exact ⟨j, rfl, le_refl _, hij, rfl, lt_of_le_of_ne (hmono (j-1) j (by omega) (by omega)) h⟩

theorem segLoop_spec (size : Nat) (k : Nat → K) (t : K) (fuel i j : Nat) (hij : i < j) (hj : j < size) (hf : j - i < fuel)
    (hmono : ∀ a b, a ≤ b → b < size → k a ≤ k b) (hlt : k i < k j) :
    ∃ s, segLoop size k t fuel i j = .ok s ∧ i ≤ s ∧ s < j ∧ k s < k (s+1) ∧ (k i ≤ t → k s ≤ t) ∧ (k s ≤ t ∨ k s = k i) ∧
      (t < k (s+1) ∨ k (s+1) = k j) := by
  induction fuel generalizing i j with
  | zero => omega
  | succ fuel ih =>
    unfold segLoop
    obtain ⟨i', a1, a2, a3, a4, a5⟩ := skipUp_spec size k size i j hij hj (by omega) hmono hlt
    have hlt' : k i' < k j := by rw [a4]; exact hlt
    obtain ⟨j', b1, b2, b3, b4, b5⟩ := skipDown_spec size k size i' j a3 hj (by omega) hmono hlt'
    rw [a1, b1]
    simp only [Res.bind]
    by_cases hbr : j' ≤ i' + 1
    · rw [if_pos hbr]
      have : j' = i' + 1 := by omega
      subst this
      exact ⟨i', rfl, a2, a3, a5, fun h => by rw [a4]; exact h, Or.inr a4, Or.inr b4⟩
    · rw [if_neg hbr]
      by_cases hm : k ((i' + j')/2) > t
      · rw [if_pos hm]
        obtain ⟨s, c1, c2, c3, c4, c5, c6, c7⟩ := ih i' ((i'+j')/2) (by omega) (by omega) (by omega)
          (lt_of_lt_of_le a5 (hmono (i'+1) _ (by omega) (by omega)))
        refine ⟨s, c1, by omega, by omega, c4, fun h => c5 (by rw [a4]; exact h), c6.imp id (fun h => by rw [h, a4]), ?_⟩
        rcases c7 with h | h
        · exact Or.inl h
        · exact Or.inl (by rw [h]; exact hm)
      · rw [if_neg hm]
        push Not at hm
        obtain ⟨s, c1, c2, c3, c4, c5, c6, c7⟩ := ih ((i'+j')/2) j' (by omega) (by omega) (by omega)
          (lt_of_le_of_lt (hmono _ (j'-1) (by omega) (by omega)) b5)
        exact ⟨s, c1, by omega, by omega, c4, fun _ => c5 hm, Or.inl (c5 hm), c7.imp id (fun h => by rw [h, b4])⟩

/-- **C37.** For every admissible knot vector and every parameter the search ends within the knot array with a non-empty segment of
the parameter interval; for a parameter in the interval that segment contains it (half-open, except for the right end). A
parameter before the interval gives the first non-empty segment, one after it the last. -/
theorem zBSplineParamSeg_spec (order nc : Nat) (k : Nat → K) (hk : Knots order nc k) (t : K) :
    ∃ s, zBSplineParamSeg order nc k t = .ok s ∧ order ≤ s ∧ s < nc ∧ k s < k (s+1) ∧
      (k order ≤ t → k s ≤ t) ∧ (t < k nc → t < k (s+1) ∨ k (s+1) = k nc) ∧ (t ≤ k nc → t ≤ k (s+1)) ∧
      (t < k order → k s = k order) ∧ (k nc ≤ t → k (s+1) = k nc) := by
  have hlt : order < nc := lt_of_le_of_ne hk.le (by rintro rfl; exact lt_irrefl _ hk.pos)
  obtain ⟨s, a, b, c, d, e, f, g⟩ := segLoop_spec (nc+order+1) k t (nc+1) order nc hlt (by omega) (by omega) hk.mono hk.pos
  refine ⟨s, a, b, c, d, e, fun _ => g, fun h => ?_, fun h => ?_, fun h => ?_⟩
  · rcases g with g | g
    · exact g.le
    · rw [g]; exact h
  · rcases f with f | f
    · exact absurd (lt_of_le_of_lt (hk.mono order s b (by omega)) (lt_of_le_of_lt f h)) (lt_irrefl _)
    · exact f
  · rcases g with g | g
    · exact absurd (lt_of_lt_of_le (lt_of_le_of_lt h g) (hk.mono (s+1) nc (by omega) (by omega))) (lt_irrefl _)
    · exact g

/-- **C37.** Without a non-empty parameter interval the search runs out of the knot array. -/
theorem zBSplineParamSeg_degenerate_ub : zBSplineParamSeg 1 2 (fun _ => (0:K)) 0 = .ub := by
  simp [zBSplineParamSeg, segLoop, skipUp, Res.bind]

/-! ## C38: basis functions -/

/-- The Cox–de Boor recursion started from an indicator of segment `s` (division by zero counts as zero). -/
def cdb (k : Nat → K) (s : Nat) (t : K) : Nat → Nat → K
  | i, 0 => if i = s then 1 else 0
  | i, r+1 => (t - k i) / (k (i+(r+1)) - k i) * cdb k s t i r + (k (i+(r+1)+1) - t) / (k (i+(r+1)+1) - k (i+1)) * cdb k s t (i+1) r

/-- The textbook definition: degree zero is the indicator of the half-open knot interval. -/
def coxDeBoor (k : Nat → K) (t : K) : Nat → Nat → K
  | i, 0 => if k i ≤ t ∧ t < k (i+1) then 1 else 0
  | i, r+1 => (t - k i) / (k (i+(r+1)) - k i) * coxDeBoor k t i r + (k (i+(r+1)+1) - t) / (k (i+(r+1)+1) - k (i+1)) * coxDeBoor k t (i+1) r

theorem cdb_zero (k : Nat → K) (s : Nat) (t : K) (i r : Nat) (h : i > s ∨ i + r < s) : cdb k s t i r = 0 := by
  induction r generalizing i with
  | zero => unfold cdb; rw [if_neg (by omega)]
  | succ r ih => unfold cdb; rw [ih i (by omega), ih (i+1) (by omega)]; ring

theorem basis_eq_cdb (k : Nat → K) (s : Nat) (t : K) (i r : Nat) : zBSplineParamBasis k t i r s = cdb k s t i r := by
  induction r generalizing i with
  | zero => rfl
  | succ r ih =>
    unfold zBSplineParamBasis cdb
    simp only [ih]
    by_cases h1 : i + (r+1) ≥ s
    · rw [if_pos h1]
      by_cases h2 : i ≤ s
      · rw [if_pos h2]
        by_cases h3 : k (i+(r+1)) = k i <;> by_cases h4 : k (i+(r+1)+1) = k (i+1) <;> simp [h3, h4]
      · rw [if_neg h2, cdb_zero k s t i r (by omega), cdb_zero k s t (i+1) r (by omega)]
        by_cases h3 : k (i+(r+1)) = k i <;> simp [h3]
    · rw [if_neg h1, cdb_zero k s t i r (by omega)]
      by_cases h2 : i ≤ s
      · rw [if_pos h2]
        by_cases h4 : k (i+(r+1)+1) = k (i+1) <;> simp [h4]
      · rw [if_neg h2, cdb_zero k s t (i+1) r (by omega)]; simp

/-- **C38.** For a parameter in the half-open segment `s` of non-decreasing knots `0 .. N` the computed basis value is the textbook
Cox–de Boor B-spline, for every index and every order within the knots. -/
theorem basis_correct (k : Nat → K) (N : Nat) (hmono : ∀ i j, i ≤ j → j ≤ N → k i ≤ k j) (s : Nat) (hs : s + 1 ≤ N) (t : K)
    (h1 : k s ≤ t) (h2 : t < k (s+1)) (i r : Nat) (hi : i + r + 1 ≤ N) :
    zBSplineParamBasis k t i r s = coxDeBoor k t i r := by
  rw [basis_eq_cdb]
  induction r generalizing i with
  | zero =>
    unfold cdb coxDeBoor
    by_cases h : i = s
    · subst h; rw [if_pos rfl, if_pos ⟨h1, h2⟩]
    · rw [if_neg h, if_neg]
      rintro ⟨h3, h4⟩
      rcases Nat.lt_or_gt_of_ne h with g | g
      · exact absurd (lt_of_lt_of_le h4 ((hmono (i+1) s (by omega) (by omega)).trans h1)) (lt_irrefl _)
      · exact absurd (lt_of_lt_of_le h2 ((hmono (s+1) i (by omega) (by omega)).trans h3)) (lt_irrefl _)
  | succ r ih => unfold cdb coxDeBoor; rw [ih i (by omega), ih (i+1) (by omega)]

/-- **C38.** Only knots with indices `i .. i+r+1` are read. -/
theorem basis_reads (k k' : Nat → K) (t : K) (i r s : Nat) (h : ∀ j, i ≤ j → j ≤ i + r + 1 → k j = k' j) :
    zBSplineParamBasis k t i r s = zBSplineParamBasis k' t i r s := by
  rw [basis_eq_cdb, basis_eq_cdb]
  induction r generalizing i with
  | zero => rfl
  | succ r ih =>
    unfold cdb
    rw [ih i (fun j a b => h j a (by omega)), ih (i+1) (fun j a b => h j (by omega) (by omega)), h i (by omega) (by omega), h (i+(r+1)) (by omega) (by omega),
      h (i+(r+1)+1) (by omega) (by omega), h (i+1) (by omega) (by omega)]

/-- **C38.** The basis functions outside `s-r .. s` vanish. -/
theorem basis_outside (k : Nat → K) (t : K) (i r s : Nat) (h : i > s ∨ i + r < s) : zBSplineParamBasis k t i r s = 0 := by
  rw [basis_eq_cdb, cdb_zero k s t i r h]

/-- **C38.** Within its segment every basis function is non-negative. -/
theorem basis_nonneg (k : Nat → K) (s r : Nat) (hmono : ∀ i j, i ≤ j → j ≤ s + r + 1 → k i ≤ k j) (t : K) (h1 : k s ≤ t) (h2 : t ≤ k (s+1)) (i : Nat) :
    0 ≤ zBSplineParamBasis k t i r s := by
  rw [basis_eq_cdb]
  induction r generalizing i with
  | zero => unfold cdb; split <;> simp
  | succ r ih =>
    unfold cdb
    have g1 := ih (fun a b c d => hmono a b c (by omega)) i
    have g2 := ih (fun a b c d => hmono a b c (by omega)) (i+1)
    apply add_nonneg
    · by_cases h : i ≤ s ∧ s ≤ i + r
      · exact mul_nonneg (div_nonneg (by linarith [hmono i s h.1 (by omega)]) (by linarith [hmono i (i+(r+1)) (by omega) (by omega)])) g1
      · rw [cdb_zero k s t i r (by omega), mul_zero]
    · by_cases h : i + 1 ≤ s ∧ s ≤ i + 1 + r
      · exact mul_nonneg (div_nonneg (by linarith [hmono (s+1) (i+(r+1)+1) (by omega) (by omega)]) (by linarith [hmono (i+1) (i+(r+1)+1) (by omega) (by omega)])) g2
      · by_cases h' : i = s ∨ i + 1 > s
        · rw [cdb_zero k s t (i+1) r (by omega), mul_zero]
        · rw [cdb_zero k s t (i+1) r (by omega), mul_zero]

/-- **C38.** Partition of unity: in a non-empty segment `s ≥ r` the basis functions `s-r .. s` sum to 1, for every parameter. -/
theorem basis_sum (k : Nat → K) (s r : Nat) (hr : r ≤ s) (hmono : ∀ i j, i ≤ j → j ≤ s + r → k i ≤ k j) (hs : k s < k (s+1)) (t : K) :
    ∑ i ∈ Ico (s - r) (s+1), zBSplineParamBasis k t i r s = 1 := by
  simp_rw [basis_eq_cdb]
  induction r with
  | zero => simp [cdb]
  | succ r ih =>
    have h := ih (by omega) (fun i j a b => hmono i j a (by omega))
    have e : s - (r+1) + 1 = s - r := by omega
    unfold cdb
    rw [sum_add_distrib]
    have a1 : ∑ i ∈ Ico (s-(r+1)) (s+1), (t - k i) / (k (i+(r+1)) - k i) * cdb k s t i r =
        ∑ i ∈ Ico (s-r) (s+1), (t - k i) / (k (i+(r+1)) - k i) * cdb k s t i r := by
      rw [sum_eq_sum_Ico_succ_bot (by omega), e, cdb_zero k s t _ r (by omega), mul_zero, zero_add]
    have a2 : ∑ i ∈ Ico (s-(r+1)) (s+1), (k (i+(r+1)+1) - t) / (k (i+(r+1)+1) - k (i+1)) * cdb k s t (i+1) r =
        ∑ i ∈ Ico (s-r) (s+1), (k (i+(r+1)) - t) / (k (i+(r+1)) - k i) * cdb k s t i r := by
      rw [sum_Ico_succ_top (by omega), cdb_zero k s t (s+1) r (by omega), mul_zero, add_zero]
      have := sum_Ico_add' (fun i => (k (i+(r+1)) - t) / (k (i+(r+1)) - k i) * cdb k s t i r) (s-(r+1)) s 1
      rw [e] at this
      rw [← this]
      refine sum_congr rfl fun i _ => ?_
      rw [show i + 1 + (r+1) = i + (r+1) + 1 by omega]
    rw [a1, a2, ← sum_add_distrib, ← h]
    refine sum_congr rfl fun i hi => ?_
    rw [mem_Ico] at hi
    have hne : k (i+(r+1)) - k i ≠ 0 := by
      have h1 := hmono i s (by omega) (by omega)
      have h2 := hmono (s+1) (i+(r+1)) (by omega) (by omega)
      have : k i < k (i+(r+1)) := lt_of_le_of_lt h1 (lt_of_lt_of_le hs h2)
      exact (sub_pos.mpr this).ne'
    rw [← add_mul, ← add_div, show t - k i + (k (i+(r+1)) - t) = k (i+(r+1)) - k i by ring, div_self hne, one_mul]

/-- Values at the left end of the segment when the knots before it coincide: only the first basis function is left. -/
theorem cdb_left (k : Nat → K) (s r : Nat) (hk : ∀ j, s < j + r → j ≤ s → k j = k s) (i : Nat) (hi : s < i + r) : cdb k s (k s) i r = 0 := by
  induction r generalizing i with
  | zero => exact cdb_zero k s _ i 0 (by omega)
  | succ r ih =>
    unfold cdb
    rw [ih (fun j a b => hk j (by omega) b) (i+1) (by omega), mul_zero, add_zero]
    by_cases h : i ≤ s
    · rw [hk i hi h]; simp
    · rw [cdb_zero k s _ i r (by omega), mul_zero]

/-- Values at the right end when the knots after it coincide. -/
theorem cdb_right (k : Nat → K) (s r : Nat) (hk : ∀ j, s + 1 ≤ j → j ≤ s + r → k j = k (s+1)) (i : Nat) (hi : i < s) : cdb k s (k (s+1)) i r = 0 := by
  induction r generalizing i with
  | zero => unfold cdb; rw [if_neg (by omega)]
  | succ r ih =>
    unfold cdb
    rw [ih (fun j a b => hk j a (by omega)) i hi, mul_zero, zero_add]
    by_cases h : s ≤ i + (r+1)
    · rw [hk (i+(r+1)+1) (by omega) (by omega)]; simp
    · rw [cdb_zero k s _ (i+1) r (by omega), mul_zero]

/-! ## C38: derivatives of the basis functions -/

/-- `BasisDiff` without the guards, which never change the value. -/
theorem basisDiff_succ (order : Nat) (k : Nat → K) (t : K) (i r s d : Nat) (hd : d ≤ order) :
    zBSplineParamBasisDiff order k t i (r+1) s (d+1) =
      (zBSplineParamBasisDiff order k t i r s d / (k (i+(r+1)) - k i) - zBSplineParamBasisDiff order k t (i+1) r s d / (k (i+(r+1)+1) - k (i+1))) * ((r+1:Nat):K) := by
  have hz : ∀ d r i, (i > s ∨ i + r < s) → zBSplineParamBasisDiff order k t i r s d = 0 := by
    intro d
    induction d with
    | zero => intro r i h; unfold zBSplineParamBasisDiff; exact basis_outside k t i r s h
    | succ d ih =>
      intro r i h
      unfold zBSplineParamBasisDiff
      split
      · rfl
      · cases r with
        | zero => rfl
        | succ r =>
          simp only
          rw [ih r i (by omega), ih r (i+1) (by omega)]
          simp
  conv_lhs => unfold zBSplineParamBasisDiff
  rw [if_neg (by omega)]
  simp only
  congr 1
  by_cases h1 : i + (r+1) ≥ s
  · by_cases h2 : i ≤ s
    · by_cases h3 : k (i+(r+1)) - k i = 0 <;> by_cases h4 : k (i+(r+1)+1) - k (i+1) = 0 <;> simp [h1, h2, h3, h4]
    · rw [hz d r i (by omega), hz d r (i+1) (by omega)]; simp
  · rw [hz d r i (by omega)]
    by_cases h2 : i ≤ s
    · by_cases h4 : k (i+(r+1)+1) - k (i+1) = 0 <;> simp [h2, h4]
    · rw [hz d r (i+1) (by omega)]; simp

theorem basisDiff_zero_order (order : Nat) (k : Nat → K) (t : K) (i s d : Nat) : zBSplineParamBasisDiff order k t i 0 s (d+1) = 0 := by
  unfold zBSplineParamBasisDiff; split <;> rfl

end

/-- The derivative of the recursion (one step). -/
theorem cdb_hasDerivAt (k : Nat → ℝ) (s r : Nat) (i : Nat) (hmono : ∀ a b, a ≤ b → b ≤ i + r + 2 → k a ≤ k b) (t : ℝ) :
    HasDerivAt (fun t => cdb k s t i (r+1))
      ((cdb k s t i r / (k (i+(r+1)) - k i) - cdb k s t (i+1) r / (k (i+(r+1)+1) - k (i+1))) * ((r+1:Nat):ℝ)) t := by
  induction r generalizing i with
  | zero =>
    unfold cdb
    simp only [cdb]
    have h1 := (((hasDerivAt_id t).sub_const (k i)).div_const (k (i+(0+1)) - k i)).mul_const (if i = s then (1:ℝ) else 0)
    have h2 := (((hasDerivAt_id t).const_sub (k (i+(0+1)+1))).div_const (k (i+(0+1)+1) - k (i+1))).mul_const (if i+1 = s then (1:ℝ) else 0)
    refine (h1.add h2).congr_deriv ?_
    simp only [Nat.zero_add, Nat.cast_one, mul_one, id]
    ring
  | succ r ih =>
    have d1 := ih i (fun a b c d => hmono a b c (by omega))
    have d2 := ih (i+1) (fun a b c d => hmono a b c (by omega))
    have h1 := (((hasDerivAt_id t).sub_const (k i)).div_const (k (i+(r+1+1)) - k i)).mul d1
    have h2 := (((hasDerivAt_id t).const_sub (k (i+(r+1+1)+1))).div_const (k (i+(r+1+1)+1) - k (i+1))).mul d2
    have hf : (fun t => cdb k s t i (r+1+1)) = fun t => (t - k i) / (k (i+(r+1+1)) - k i) * cdb k s t i (r+1) +
        (k (i+(r+1+1)+1) - t) / (k (i+(r+1+1)+1) - k (i+1)) * cdb k s t (i+1) (r+1) := by
      funext t; conv_lhs => unfold cdb
    rw [hf]
    refine (h1.add h2).congr_deriv ?_
    simp only [id]
    have e1 : cdb k s t i (r+1) = (t - k i) / (k (i+(r+1)) - k i) * cdb k s t i r + (k (i+(r+1)+1) - t) / (k (i+(r+1)+1) - k (i+1)) * cdb k s t (i+1) r := by
      conv_lhs => unfold cdb
    have e2 : cdb k s t (i+1) (r+1) = (t - k (i+1)) / (k (i+1+(r+1)) - k (i+1)) * cdb k s t (i+1) r + (k (i+1+(r+1)+1) - t) / (k (i+1+(r+1)+1) - k (i+1+1)) * cdb k s t (i+1+1) r := by
      conv_lhs => unfold cdb
    have i1 : i + 1 + (r+1) = i + (r+1) + 1 := by omega
    have i2 : i + (r+1+1) = i + (r+1) + 1 := by omega
    rw [i1] at e2 ⊢
    rw [i2]
    generalize cdb k s t i (r+1) = B1 at *
    generalize cdb k s t (i+1) (r+1) = B2 at *
    generalize cdb k s t i r = b0 at *
    generalize cdb k s t (i+1) r = b1 at *
    generalize cdb k s t (i+1+1) r = b2 at *
    have m1 := hmono i (i+1) (by omega) (by omega)
    have m2 := hmono (i+1) (i+(r+1)+1) (by omega) (by omega)
    have m3 := hmono (i+(r+1)+1) (i+(r+1)+1+1) (by omega) (by omega)
    -- the middle term
    have mid : (k (i+(r+1)+1) - k i) / (k (i+(r+1)+1) - k i) * (1 / (k (i+(r+1)+1) - k (i+1))) =
        (k (i+(r+1)+1+1) - k (i+1)) / (k (i+(r+1)+1+1) - k (i+1)) * (1 / (k (i+(r+1)+1) - k (i+1))) := by
      by_cases h : k (i+(r+1)+1) - k (i+1) = 0
      · rw [h]; simp
      · have p : 0 < k (i+(r+1)+1) - k (i+1) := lt_of_le_of_ne (by linarith) (Ne.symm h)
        have q1 : k (i+(r+1)+1) - k i ≠ 0 := by intro h; linarith
        have q2 : k (i+(r+1)+1+1) - k (i+1) ≠ 0 := by intro h; linarith
        rw [div_self q1, div_self q2]
    rw [e1, e2]
    push_cast
    simp only [div_eq_mul_inv, one_mul] at mid ⊢
    linear_combination (-(r+1:ℝ) * b1) * mid

/-- **C38.** The derivative routine returns the derivative of the basis function of the segment: for every order of
differentiation up to the order of the curve plus one, the value for `diff+1` is the derivative of that for `diff`. -/
theorem basisDiff_hasDerivAt (order : Nat) (k : Nat → ℝ) (s r i d : Nat) (hd : d ≤ order) (hmono : ∀ a b, a ≤ b → b ≤ i + r + 1 → k a ≤ k b) (t : ℝ) :
    HasDerivAt (fun t => zBSplineParamBasisDiff order k t i r s d) (zBSplineParamBasisDiff order k t i r s (d+1)) t := by
  induction d generalizing i r with
  | zero =>
    have e : (fun t => zBSplineParamBasisDiff order k t i r s 0) = fun t => cdb k s t i r := by
      funext t; unfold zBSplineParamBasisDiff; exact basis_eq_cdb k s t i r
    rw [e]
    cases r with
    | zero =>
      rw [basisDiff_zero_order]
      exact hasDerivAt_const t _
    | succ r =>
      rw [basisDiff_succ order k t i r s 0 (by omega)]
      have := cdb_hasDerivAt k s r i (fun a b c d => hmono a b c (by omega)) t
      refine this.congr_deriv ?_
      unfold zBSplineParamBasisDiff
      rw [basis_eq_cdb, basis_eq_cdb]
  | succ d ih =>
    cases r with
    | zero =>
      rw [basisDiff_zero_order]
      have : (fun t => zBSplineParamBasisDiff order k t i 0 s (d+1)) = fun _ => 0 := by funext t; exact basisDiff_zero_order ..
      rw [this]
      exact hasDerivAt_const t _
    | succ r =>
      have : (fun t => zBSplineParamBasisDiff order k t i (r+1) s (d+1)) = fun t =>
        (zBSplineParamBasisDiff order k t i r s d / (k (i+(r+1)) - k i) - zBSplineParamBasisDiff order k t (i+1) r s d / (k (i+(r+1)+1) - k (i+1))) * ((r+1:Nat):ℝ) := by
        funext t; exact basisDiff_succ order k t i r s d (by omega)
      rw [this, basisDiff_succ order k t i r s (d+1) (by omega)]
      exact (((ih r i (by omega) (fun a b c d => hmono a b c (by omega))).div_const _).sub ((ih r (i+1) (by omega) (fun a b c d => hmono a b c (by omega))).div_const _)).mul_const _

end Zm.NURBS
