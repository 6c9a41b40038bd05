import Verif.Model.NURBSNN
import Verif.Props.NURBSCurve
import Mathlib.Algebra.Order.Ring.Rat

/-! # Nearest point of a NURBS curve

The specification: `D s` is the distance of the point of the curve at the parameter `s`, and `grid a b i` are the 31 parameters at which the
curve is sampled first. -/

set_option linter.unusedSectionVars false

namespace Zm.NURBS
open Zm

section
variable {K : Type*} [Field K] [LinearOrder K] [IsStrictOrderedRing K] {V : Type*}

/-- The parameters of the first samples. -/
def grid (a b : K) (i : Nat) : K := (b - a) * (i : K) / 30 + a

/-- `ev` is defined between `a` and `b`, and the distances there are `D`. -/
def HasDist (ev : K → Res V) (dist : V → K) (a b : K) (D : K → K) : Prop := ∀ s, a ≤ s → s ≤ b → ∃ p, ev s = .ok p ∧ dist p = D s

/-- The distance has no two valleys: between two parameters it is nowhere larger than at the worse of them. -/
def OneValley (a b : K) (D : K → K) : Prop := ∀ s t, a ≤ s → s ≤ b → a ≤ t → t ≤ b → D (1/2 * (s + t)) ≤ max (D s) (D t)

/-- What holds of the variables of the search. -/
structure NNInv (a b : K) (D : K → K) (st : NN K) : Prop where
  a1 : a ≤ st.s1
  b1 : st.s1 ≤ b
  a2 : a ≤ st.s2
  b2 : st.s2 ≤ b
  e1 : ∀ d, st.d1 = some d → D st.s1 = d
  e2 : ∀ d, st.d2 = some d → D st.s2 = d
  le : ∀ y, st.d2 = some y → ∃ x, st.d1 = some x ∧ x ≤ y

theorem ltMin_none (d : K) : ltMin d none = true := rfl

theorem ltMin_some (d m : K) : ltMin d (some m) = true ↔ d < m := by
  show decide (d < m) = true ↔ _
  rw [decide_eq_true_iff]

theorem nnSample_inv {a b : K} {D : K → K} {st : NN K} (h : NNInv a b D st) (s : K) (ha : a ≤ s) (hb : s ≤ b) :
    NNInv a b D (nnSample (D s) s st) := by
  unfold nnSample
  split
  · rename_i h1
    refine ⟨ha, hb, h.a1, h.b1, fun d hd => by simpa using hd, fun d hd => h.e1 d hd, fun y hy => ⟨D s, rfl, ?_⟩⟩
    simp only at hy
    rw [hy, ltMin_some] at h1
    exact h1.le
  · rename_i h1
    split
    · refine ⟨h.a1, h.b1, ha, hb, h.e1, fun d hd => by simpa using hd, fun y hy => ?_⟩
      simp only [Option.some.injEq] at hy
      subst hy
      cases hd : st.d1 with
      | none => rw [hd] at h1; exact absurd (ltMin_none _) h1
      | some x => rw [hd, ltMin_some] at h1; exact ⟨x, rfl, not_lt.1 h1⟩
    · exact h

/-- The second best distance is at most `d`. -/
def Below (d : K) (st : NN K) : Prop := ∃ y, st.d2 = some y ∧ y ≤ d

theorem nnSample_below {a b : K} {D : K → K} {st : NN K} (h : NNInv a b D st) (d e s : K) (hd : Below d st) : Below d (nnSample e s st) := by
  obtain ⟨y, hy, hyd⟩ := hd
  unfold nnSample
  split
  · obtain ⟨x, hx, hxy⟩ := h.le y hy
    exact ⟨x, hx, hxy.trans hyd⟩
  · split
    · rename_i h2
      rw [hy, ltMin_some] at h2
      exact ⟨e, rfl, h2.le.trans hyd⟩
    · exact ⟨y, hy, hyd⟩

theorem grid_mem {a b u v : K} (hu : a ≤ u) (hu' : u ≤ b) (hv : a ≤ v) (hv' : v ≤ b) (j : Nat) (hj : j ≤ 30) :
    a ≤ grid u v j ∧ grid u v j ≤ b := by
  have h0 : (0 : K) ≤ (j : K) / 30 := by positivity
  have h1 : (j : K) / 30 ≤ 1 := by
    rw [div_le_one (by norm_num)]
    exact_mod_cast hj
  have : grid u v j = (1 - (j : K) / 30) * u + (j : K) / 30 * v := by unfold grid; ring
  rw [this]
  have h2 : 0 ≤ 1 - (j : K) / 30 := by linarith
  constructor
  · nlinarith [mul_nonneg h2 (sub_nonneg.2 hu), mul_nonneg h0 (sub_nonneg.2 hv)]
  · nlinarith [mul_nonneg h2 (sub_nonneg.2 hu'), mul_nonneg h0 (sub_nonneg.2 hv')]

variable {ev : K → Res V} {dist : V → K} {a b : K} {D : K → K}

/-- One round keeps the invariant, does not lose ground, and takes all of its samples into account. -/
theorem nnRound_spec (hD : HasDist ev dist a b D) (st : NN K) (h : NNInv a b D st) :
    ∃ st', nnRound ev dist st = .ok st' ∧ NNInv a b D st' ∧ (∀ d, Below d st → Below d st') ∧
      ∀ i j, i < j → j ≤ 30 → Below (max (D (grid st.s1 st.s2 i)) (D (grid st.s1 st.s2 j))) st' := by
  refine Exists.elim (forUpM_ok (lo := 0) (hi := 31) (fun j s =>
    (ev ((st.s2 - st.s1) * (j : K) / 30 + st.s1)).bind fun vs => .ok (nnSample (dist vs) ((st.s2 - st.s1) * (j : K) / 30 + st.s1) s)) st
    (fun m s => NNInv a b D s ∧ (∀ d, Below d st → Below d s) ∧
      (∀ i j, i < j → j < m → Below (max (D (grid st.s1 st.s2 i)) (D (grid st.s1 st.s2 j))) s) ∧
      ∀ i, i < m → ∃ x, s.d1 = some x ∧ x ≤ D (grid st.s1 st.s2 i)) (Nat.zero_le _)
    ⟨h, fun _ => id, fun i j _ hj => absurd hj (Nat.not_lt_zero _), fun i hi => absurd hi (Nat.not_lt_zero _)⟩ ?_)
    (fun st' hh => ⟨st', hh.1, hh.2.1, hh.2.2.1, fun i j hij hj => hh.2.2.2.1 i j hij (by omega)⟩)
  · rintro m s - hm ⟨i1, i2, i3, i4⟩
    obtain ⟨g1, g2⟩ := grid_mem h.a1 h.b1 h.a2 h.b2 m (by omega)
    obtain ⟨p, hp, hd⟩ := hD _ g1 g2
    refine ⟨nnSample (D (grid st.s1 st.s2 m)) (grid st.s1 st.s2 m) s, ?_, nnSample_inv i1 _ g1 g2, fun d hd => nnSample_below i1 _ _ _ (i2 d hd), ?_, ?_⟩
    · show (ev (grid st.s1 st.s2 m)).bind (fun vs => .ok (nnSample (dist vs) (grid st.s1 st.s2 m) s)) = _
      rw [hp]
      simp only [Res.bind, hd]
    · intro i j hij hj
      by_cases hjm : j < m
      · exact nnSample_below i1 _ _ _ (i3 i j hij hjm)
      · have : j = m := by omega
        subst this
        obtain ⟨x, hx, hxi⟩ := i4 i hij
        unfold nnSample
        split
        · exact ⟨x, hx, hxi.trans (le_max_left _ _)⟩
        · split
          · exact ⟨_, rfl, le_max_right _ _⟩
          · rename_i h5
            cases hy : s.d2 with
            | none => rw [hy] at h5; exact absurd (ltMin_none _) h5
            | some y => rw [hy, ltMin_some] at h5; exact ⟨y, hy, (not_lt.1 h5).trans (le_max_right _ _)⟩
    · intro i hi
      unfold nnSample
      split
      · rename_i h5
        by_cases him : i < m
        · obtain ⟨x, hx, hxi⟩ := i4 i him
          rw [hx, ltMin_some] at h5
          exact ⟨_, rfl, h5.le.trans hxi⟩
        · have : i = m := by omega
          subst this
          exact ⟨_, rfl, le_refl _⟩
      · rename_i h5
        have key : ∃ x, s.d1 = some x ∧ x ≤ D (grid st.s1 st.s2 i) := by
          by_cases him : i < m
          · exact i4 i him
          · have : i = m := by omega
            subst this
            cases hx : s.d1 with
            | none => rw [hx] at h5; exact absurd (ltMin_none _) h5
            | some x => rw [hx, ltMin_some] at h5; exact ⟨x, rfl, not_lt.1 h5⟩
        split
        · exact key
        · exact key

theorem nnLoop_spec (tol : K) (hD : HasDist ev dist a b D) (n : Nat) (st : NN K) (h : NNInv a b D st) :
    ∃ st', nnLoop tol ev dist n st = .ok st' ∧ NNInv a b D st' ∧ (∀ d, Below d st → Below d st') ∧
      (0 < n → ∀ i j, i < j → j ≤ 30 → Below (max (D (grid st.s1 st.s2 i)) (D (grid st.s1 st.s2 j))) st') := by
  induction n generalizing st with
  | zero => exact ⟨st, rfl, h, fun _ => id, fun h => absurd h (lt_irrefl _)⟩
  | succ n ih =>
    obtain ⟨s1, h1, h2, h3, h4⟩ := nnRound_spec hD st h
    unfold nnLoop
    rw [h1]
    simp only [Res.bind]
    split
    · exact ⟨s1, rfl, h2, h3, fun _ => h4⟩
    · obtain ⟨s2, g1, g2, g3, -⟩ := ih s1 h2
      exact ⟨s2, g1, g2, fun d hd => g3 d (h3 d hd), fun _ i j hij hj => g3 _ (h4 i j hij hj)⟩

theorem nnSearch_spec (tol : K) (hab : a ≤ b) (hD : HasDist ev dist a b D) : ∃ s p, nnSearch tol ev dist a b = .ok (s, p) ∧ a ≤ s ∧ s ≤ b ∧
    ev s = .ok p ∧ (OneValley a b D → ∀ i j, i < j → j ≤ 30 → dist p ≤ max (D (grid a b i)) (D (grid a b j))) := by
  obtain ⟨st, h1, h2, -, h3⟩ := nnLoop_spec tol hD 10000 { s1 := a, s2 := b, d1 := none, d2 := none }
    ⟨le_refl _, hab, hab, le_refl _, fun d hd => absurd hd (by simp), fun d hd => absurd hd (by simp), fun d hd => absurd hd (by simp)⟩
  have ha : a ≤ 1/2 * (st.s1 + st.s2) := by linarith [h2.a1, h2.a2]
  have hb : 1/2 * (st.s1 + st.s2) ≤ b := by linarith [h2.b1, h2.b2]
  obtain ⟨p, hp, hd⟩ := hD _ ha hb
  refine ⟨_, p, ?_, ha, hb, hp, fun hv i j hij hj => ?_⟩
  · unfold nnSearch
    rw [h1]
    simp only [Res.bind, hp]
  · obtain ⟨y, hy, hyd⟩ := h3 (by norm_num) i j hij hj
    obtain ⟨x, hx, hxy⟩ := h2.le y hy
    have := hv _ _ h2.a1 h2.b1 h2.a2 h2.b2
    rw [h2.e1 x hx, h2.e2 y hy] at this
    rw [hd]
    exact this.trans ((max_le hxy (le_refl _)).trans hyd)

variable [AddCommGroup V] [Module K V]

/-- The distance from the point of the curve at `s`. -/
def CurveDist (tol : K) (order nc : Nat) (k w : Nat → K) (P : Nat → V) (dist : V → K) (D : K → K) : Prop :=
  ∀ s p, zNURBSVec tol order nc k w P s = .ok p → D s = dist p

theorem curve_hasDist (tol : K) (order nc : Nat) (k w : Nat → K) (hk : Knots order nc k) (P : Nat → V) (dist : V → K) (D : K → K)
    (hD : CurveDist tol order nc k w P dist D) : HasDist (zNURBSVec tol order nc k w P) dist (k order) (k nc) D := by
  intro s _ _
  obtain ⟨sg, h1, -⟩ := zBSplineParamSeg_spec order nc k hk s
  obtain ⟨p, hp⟩ : ∃ p, zNURBSVec tol order nc k w P s = .ok p := by
    unfold zNURBSVec
    rw [h1]
    exact ⟨_, rfl⟩
  exact ⟨p, hp, (hD s p hp).symm⟩

/-- For every curve and every distance the search ends within the curve and stores the point of the curve at the parameter it returns. -/
theorem zNURBSVecNN_on_curve (tol : K) (order nc : Nat) (k w : Nat → K) (hk : Knots order nc k) (P : Nat → V) (dist : V → K) (nn : V) :
    ∃ s p, zNURBSVecNN tol order nc k w P dist true nn = .ok (s, p) ∧ k order ≤ s ∧ s ≤ k nc ∧ zNURBSVec tol order nc k w P s = .ok p := by
  obtain ⟨s, p, h1, h2, h3, h4, -⟩ := nnSearch_spec tol hk.pos.le (curve_hasDist tol order nc k w hk P dist
    (fun s => match zNURBSVec tol order nc k w P s with | .ok p => dist p | _ => 0) (fun s p h => by simp only [h]))
  exact ⟨s, p, h1, h2, h3, h4⟩

/-- If the distance along the curve has one valley only, at most one of the first 31 samples is nearer than the point found. -/
theorem zNURBSVecNN_nearest_partial (tol : K) (order nc : Nat) (k w : Nat → K) (hk : Knots order nc k) (P : Nat → V) (dist : V → K) (nn : V)
    (D : K → K) (hD : CurveDist tol order nc k w P dist D) (hv : OneValley (k order) (k nc) D) :
    ∃ s p, zNURBSVecNN tol order nc k w P dist true nn = .ok (s, p) ∧
      ∀ i j, i < j → j ≤ 30 → dist p ≤ max (D (grid (k order) (k nc) i)) (D (grid (k order) (k nc) j)) := by
  obtain ⟨s, p, h1, -, -, -, h5⟩ := nnSearch_spec tol hk.pos.le (curve_hasDist tol order nc k w hk P dist D hD)
  exact ⟨s, p, h1, h5 hv⟩

/-- Hence, if the distance has one valley and changes by at most `L` per unit of the parameter, the point found is nearest but for a thirtieth of
the length of the parameter interval times `L`. -/
theorem zNURBSVecNN_error_partial (tol : K) (order nc : Nat) (k w : Nat → K) (hk : Knots order nc k) (P : Nat → V) (dist : V → K) (nn : V)
    (D : K → K) (hD : CurveDist tol order nc k w P dist D) (hv : OneValley (k order) (k nc) D) (L : K) (hL : 0 ≤ L)
    (hlip : ∀ s t, k order ≤ s → s ≤ k nc → k order ≤ t → t ≤ k nc → D s ≤ D t + L * |s - t|) :
    ∃ s p, zNURBSVecNN tol order nc k w P dist true nn = .ok (s, p) ∧
      ∀ t, k order ≤ t → t ≤ k nc → dist p ≤ D t + L * ((k nc - k order) / 30) := by
  obtain ⟨s, p, h1, h2⟩ := zNURBSVecNN_nearest_partial tol order nc k w hk P dist nn D hD hv
  refine ⟨s, p, h1, fun t ht1 ht2 => ?_⟩
  generalize ha : k order = a at *
  generalize hb : k nc = b at *
  have hab : a < b := by rw [← ha, ← hb]; exact hk.pos
  -- the cell of the grid around `t`
  have hcell : ∃ i, i < 30 ∧ grid a b i ≤ t ∧ t ≤ grid a b (i+1) := by
    have h0 : grid a b 0 ≤ t := by unfold grid; simpa using ht1
    have h30 : t ≤ grid a b 30 := by unfold grid; push_cast; linarith [show (b - a) * 30 / 30 + a = b by ring]
    by_contra hcon
    push Not at hcon
    have : ∀ i, i ≤ 30 → i = 0 ∨ grid a b i < t := by
      intro i
      induction i with
      | zero => intro _; exact Or.inl rfl
      | succ i ih =>
        intro hi
        right
        refine hcon i (by omega) ?_
        rcases ih (by omega) with rfl | h
        · exact h0
        · exact h.le
    rcases this 30 (le_refl _) with h | h
    · omega
    · exact absurd h (not_lt.2 h30)
  obtain ⟨i, hi, hl, hr⟩ := hcell
  obtain ⟨g1, g2⟩ := grid_mem (le_refl a) hab.le hab.le (le_refl b) i (by omega)
  obtain ⟨g3, g4⟩ := grid_mem (le_refl a) hab.le hab.le (le_refl b) (i+1) (by omega)
  have hstep : grid a b (i+1) - grid a b i = (b - a) / 30 := by unfold grid; push_cast; ring
  have e1 : D (grid a b i) ≤ D t + L * ((b - a) / 30) := by
    refine (hlip _ t g1 g2 ht1 ht2).trans ?_
    have : |grid a b i - t| ≤ (b - a) / 30 := by rw [abs_le]; constructor <;> linarith
    linarith [mul_le_mul_of_nonneg_left this hL]
  have e2 : D (grid a b (i+1)) ≤ D t + L * ((b - a) / 30) := by
    refine (hlip _ t g3 g4 ht1 ht2).trans ?_
    have : |grid a b (i+1) - t| ≤ (b - a) / 30 := by rw [abs_le]; constructor <;> linarith
    linarith [mul_le_mul_of_nonneg_left this hL]
  exact (h2 i (i+1) (by omega) (by omega)).trans (max_le e1 e2)

end

/-- The segment from 0 to 4 as a curve of order 1. -/
theorem segment_curve (s : ℚ) : zNURBSVec (1/1000000000000) 1 2 (zBSplineParamKnotInit 1 2 (fun _ => 0)) (fun _ => 1) (fun i => if i = 1 then 4 else 0) s = .ok (4 * s) := by
  have hk : Knots 1 2 (zBSplineParamKnotInit 1 2 (fun _ => (0 : ℚ))) := (zBSplineParamKnotInit_knots 1 2 (by decide) _).1
  obtain ⟨sg, h1, h2, h3, -⟩ := zBSplineParamSeg_spec 1 2 _ hk s
  have hs : sg = 1 := by omega
  subst hs
  have k0 : zBSplineParamKnotInit 1 2 (fun _ => (0 : ℚ)) 0 = 0 := by decide +kernel
  have k1 : zBSplineParamKnotInit 1 2 (fun _ => (0 : ℚ)) 1 = 0 := by decide +kernel
  have k2 : zBSplineParamKnotInit 1 2 (fun _ => (0 : ℚ)) 2 = 1 := by decide +kernel
  have k3 : zBSplineParamKnotInit 1 2 (fun _ => (0 : ℚ)) 3 = 1 := by decide +kernel
  unfold zNURBSVec
  rw [h1]
  simp only [Res.bind, nurbsLoop, Nat.sub_self, forUp, forN, zBSplineParamBasis, Nat.zero_add, Nat.add_zero, Nat.reduceAdd, k0, k1, k2, k3]
  norm_num
  ring

example : OneValley (0 : ℚ) 1 (fun s => |(-1) - 4 * s|) := by
  intro s t _ _ _ _
  simp only [le_max_iff]
  rcases le_total s t with h | h
  · right; rw [abs_of_nonpos (by linarith), abs_of_nonpos (by linarith)]; linarith
  · left; rw [abs_of_nonpos (by linarith), abs_of_nonpos (by linarith)]; linarith

example : CurveDist (1/1000000000000) 1 2 (zBSplineParamKnotInit 1 2 (fun _ => 0)) (fun _ => (1 : ℚ)) (fun i => if i = 1 then (4 : ℚ) else 0)
    (fun p => |(-1) - p|) (fun s => |(-1) - 4 * s|) := by
  intro s p h
  rw [segment_curve] at h
  simp only [Res.ok.injEq] at h
  subst h
  rfl

/-- A closed curve on the line: from 0 to 4 and back. -/
def loopCP (i : Nat) : ℚ := if i = 1 then 4 else 0

/-- The knots `zBSplineParamKnotInit` gives for it. -/
def loopKnot : Nat → ℚ := zBSplineParamKnotInit 1 3 (fun _ => 0)

example : Knots 1 3 loopKnot := (zBSplineParamKnotInit_knots 1 3 (by decide) _).1

/-- On a closed curve the two ends of the parameter interval are equally near, and the search returns the middle between them: for the point
`-1` the farthest point of the curve, at distance 5 instead of 1. -/
theorem zNURBSVecNN_nearest_violated :
    zNURBSVecNN (1/1000000000000) 1 3 loopKnot (fun _ => 1) loopCP (fun p : ℚ => |(-1) - p|) true 0 = .ok (1, 4) ∧
    zNURBSVec (1/1000000000000) 1 3 loopKnot (fun _ => 1) loopCP 0 = .ok 0 ∧ |(-1) - (4 : ℚ)| = 5 ∧ |(-1) - (0 : ℚ)| = 1 := by
  decide +kernel

/-- Without memory for the working vector the start of the parameter interval is returned and the result is not stored. -/
theorem zNURBSVecNN_no_memory {K V : Type*} [Field K] [LinearOrder K] [AddCommGroup V] [Module K V] (tol : K) (order nc : Nat) (k w : Nat → K)
    (P : Nat → V) (dist : V → K) (nn : V) : zNURBSVecNN tol order nc k w P dist false nn = .ok (k order, nn) := rfl

end Zm.NURBS
