import Verif.Model.PDIP
import Verif.Props.LU
import Verif.Props.LEGen
import Verif.Props.LEIter
import Mathlib.Algebra.Order.Ring.Rat

/-!
# The primal-dual interior-point method: directions, steps, residuals and the quality of the answer
-/

set_option linter.unusedSectionVars false

namespace Zm.PDIP
open Zm LE Misc Finset
variable {K : Type*} [Field K] [LinearOrder K] [IsStrictOrderedRing K]

/-! ## The first point -/

omit [IsStrictOrderedRing K] in
theorem elemMin_le (n : Nat) (v : Nat → K) : ∀ j < n, elemMin n v ≤ v j := by
  intro j hj
  have h := forUp_inv (lo := 1) (hi := n) (fun i m => if v i < m then v i else m) (v 0) (fun k m => ∀ j < k, m ≤ v j) (by omega)
    (fun j hj => by rw [show j = 0 by omega])
    (by
      intro k m _ _ ih j hj
      by_cases e : v k < m
      · rw [if_pos e]
        by_cases g : j = k
        · rw [g]
        · exact e.le.trans (ih j (by omega))
      · rw [if_neg e]
        by_cases g : j = k
        · rw [g]; exact not_lt.1 e
        · exact ih j (by omega))
  exact h j hj

theorem shiftPos_pos (tol : K) (ht : 0 < tol) (n : Nat) (v : Nat → K) : ∀ j < n, 0 < shiftPos tol n v j := by
  intro j hj
  have h := elemMin_le n v j hj
  unfold shiftPos
  by_cases e : elemMin n v ≤ tol
  · rw [if_pos e]; linarith
  · rw [if_neg e]; linarith

/-! ## The step -/

/-- What the loop of `step` keeps, for a point that is not negative. -/
structure StepInv (tol : K) (x d : Nat → K) (k : Nat) (mx mn : Option K) : Prop where
  none : mx = none → ∀ j < k, ¬ d j < -tol
  att : ∀ v, mx = some v → ∃ j < k, d j < -tol ∧ v = -x j / d j
  le : ∀ v, mx = some v → ∀ j < k, d j < -tol → v ≤ -x j / d j
  neg : ∀ v, mn = some v → v ≤ 0

theorem stepLoop_spec (tol : K) (ht : 0 ≤ tol) (n : Nat) (x d : Nat → K) (hx : ∀ j < n, 0 ≤ x j) :
    ∃ mx mn, stepLoop tol x d n = some (mx, mn) ∧ StepInv tol x d n mx mn := by
  unfold stepLoop
  refine forUp_inv (lo := 0) (hi := n) _ _ (fun k s => ∃ mx mn, s = some (mx, mn) ∧ StepInv tol x d k mx mn) (Nat.zero_le _) ?_ ?_
  · exact ⟨none, none, rfl, fun _ j hj => absurd hj (Nat.not_lt_zero _), fun v h => by simp at h, fun v h => by simp at h, fun v h => by simp at h⟩
  · rintro i s - hi ⟨mx, mn, rfl, I⟩
    dsimp only
    have hxi := hx i hi
    rw [if_neg (fun h => by have := h.2; linarith)]
    by_cases g : d i < -tol
    · rw [if_pos g]
      cases mx with
      | none =>
        refine ⟨_, _, rfl, fun h => by simp at h, ?_, ?_, I.neg⟩
        · intro v hv
          exact ⟨i, by omega, g, by simpa using hv.symm⟩
        · intro v hv j hj hd
          by_cases e : j = i
          · have hv' : -x i / d i = v := by simpa using hv
            rw [e, hv']
          · exact absurd hd (I.none rfl j (by omega))
      | some w =>
        dsimp only
        by_cases e : -x i / d i < w
        · rw [if_pos e]
          refine ⟨_, _, rfl, fun h => by simp at h, ?_, ?_, I.neg⟩
          · intro v hv
            exact ⟨i, by omega, g, by simpa using hv.symm⟩
          · intro v hv j hj hd
            have hv' : -x i / d i = v := by simpa using hv
            rw [← hv']
            by_cases q : j = i
            · rw [q]
            · exact e.le.trans (I.le w rfl j (by omega) hd)
        · rw [if_neg e]
          refine ⟨_, _, rfl, fun h => by simp at h, ?_, ?_, I.neg⟩
          · intro v hv
            obtain ⟨j, hj, h⟩ := I.att v hv
            exact ⟨j, by omega, h⟩
          · intro v hv j hj hd
            by_cases q : j = i
            · have hv' : w = v := by simpa using hv
              rw [q, ← hv']; exact not_lt.1 e
            · exact I.le v hv j (by omega) hd
    · rw [if_neg g]
      have I' : StepInv tol x d (i+1) mx none := by
        refine ⟨?_, ?_, ?_, fun v h => by simp at h⟩
        · intro h j hj
          by_cases q : j = i
          · rw [q]; exact g
          · exact I.none h j (by omega)
        · intro v hv
          obtain ⟨j, hj, h⟩ := I.att v hv
          exact ⟨j, by omega, h⟩
        · intro v hv j hj hd
          by_cases q : j = i
          · rw [q] at hd; exact absurd hd g
          · exact I.le v hv j (by omega) hd
      by_cases e : tol < d i
      · rw [if_pos e]
        have hq : -x i / d i ≤ 0 := div_nonpos_of_nonpos_of_nonneg (by linarith) (by linarith)
        cases mn with
        | none => exact ⟨_, _, rfl, I'.none, I'.att, I'.le, fun v hv => by simp at hv; rw [← hv]; exact hq⟩
        | some w =>
          dsimp only
          by_cases f : w < -x i / d i
          · rw [if_pos f]
            exact ⟨_, _, rfl, I'.none, I'.att, I'.le, fun v hv => by simp at hv; rw [← hv]; exact hq⟩
          · rw [if_neg f]
            exact ⟨_, _, rfl, I'.none, I'.att, I'.le, I.neg⟩
      · rw [if_neg e]
        exact ⟨_, _, rfl, I'.none, I'.att, I'.le, I.neg⟩

/-- **C148** the step for a point that is not negative: it is zero if no direction is negative, and otherwise the greatest number by which one can go
without making an element with a negative direction negative. -/
theorem step_spec (tol : K) (ht : 0 ≤ tol) (n : Nat) (x d : Nat → K) (hx : ∀ j < n, 0 ≤ x j) :
    0 ≤ step tol n x d ∧ (∀ j < n, d j < -tol → 0 ≤ x j + step tol n x d * d j) ∧
    ((∀ j < n, ¬ d j < -tol) → step tol n x d = 0) ∧
    ((∃ j < n, d j < -tol) → ∃ j < n, d j < -tol ∧ x j + step tol n x d * d j = 0) := by
  obtain ⟨mx, mn, e, I⟩ := stepLoop_spec tol ht n x d hx
  have hneg : ∀ j, d j < -tol → d j < 0 := fun j h => by linarith
  have hmn : mn.getD 0 ≤ 0 := by
    cases mn with
    | none => exact le_refl _
    | some v => exact I.neg v rfl
  have hmx : 0 ≤ mx.getD 0 := by
    cases mx with
    | none => exact le_refl _
    | some v =>
      obtain ⟨j, hj, hd, rfl⟩ := I.att v rfl
      exact div_nonneg_of_nonpos (by linarith [hx j hj]) (hneg j hd).le
  have hs : step tol n x d = mx.getD 0 := by
    unfold step
    rw [e]
    dsimp only
    rw [if_neg (not_lt.2 (hmn.trans hmx))]
  rw [hs]
  refine ⟨hmx, ?_, ?_, ?_⟩
  · intro j hj hd
    cases mx with
    | none => exact absurd hd (I.none rfl j hj)
    | some v =>
      have h := I.le v rfl j hj hd
      have h2 := mul_le_mul_of_nonpos_right h (hneg j hd).le
      rw [div_mul_cancel₀ _ (hneg j hd).ne] at h2
      show 0 ≤ x j + v * d j
      linarith
  · intro h
    cases mx with
    | none => rfl
    | some v =>
      obtain ⟨j, hj, hd, -⟩ := I.att v rfl
      exact absurd hd (h j hj)
  · rintro ⟨j, hj, hd⟩
    cases mx with
    | none => exact absurd hd (I.none rfl j hj)
    | some v =>
      obtain ⟨i, hi, hdi, rfl⟩ := I.att v rfl
      refine ⟨i, hi, hdi, ?_⟩
      show x i + -x i / d i * d i = 0
      rw [div_mul_cancel₀ _ (hneg i hdi).ne]; ring

theorem damped_spec (s : K) (hs : 0 ≤ s) : 0 ≤ damped s ∧ damped s ≤ 1 ∧ damped s ≤ 99 / 100 * s := by
  unfold damped
  by_cases h : 99 / 100 * s > 1
  · rw [if_pos h]; exact ⟨zero_le_one, le_refl _, h.le⟩
  · rw [if_neg h]; exact ⟨by positivity, not_lt.1 h, le_refl _⟩

/-- **C148** with exact comparisons the damped step stays in the interior. -/
theorem damped_pos (n : Nat) (x d : Nat → K) (hx : ∀ j < n, 0 < x j) : ∀ j < n, 0 < x j + damped (step 0 n x d) * d j := by
  intro j hj
  obtain ⟨h0, h1, -, -⟩ := step_spec 0 (le_refl _) n x d fun j hj => (hx j hj).le
  obtain ⟨d0, -, d2⟩ := damped_spec _ h0
  by_cases hd : d j < 0
  · have h2 := h1 j hj (by linarith)
    have h3 := mul_le_mul_of_nonpos_right d2 hd.le
    have := hx j hj
    linarith
  · have := mul_nonneg d0 (not_lt.1 hd)
    linarith [hx j hj]

/-! ## The directions -/

/-- Newton's equations for the conditions of optimality, with the right-hand sides `w1`, `w2` and `w3`. -/
def Newton (P : Prob K) (st : St K) (w1 w2 w3 : Nat → K) (D : Dir K) : Prop :=
  (∀ i < P.m, ∑ j ∈ range P.n, P.a i j * D.dx j = - w1 i) ∧
  (∀ j < P.n, (∑ i ∈ range P.m, P.a i j * D.dy i) + D.dz j = - w2 j) ∧
  (∀ j < P.n, st.z j * D.dx j + st.x j * D.dz j = - w3 j)

/-- **C147** if the decomposition reports the full rank, the directions solve Newton's equations. -/
theorem eqLU_newton (P : Prob K) (ht : 0 ≤ P.etol) (st : St K) (lu : LUS K) (hlu : luDecomp P st = .ok lu) (hr : lu.r = P.m) (w1 w2 w3 dy0 : Nat → K) :
    Newton P st w1 w2 w3 (eqLU P st lu w1 w2 w3 dy0) := by
  unfold luDecomp at hlu
  by_cases hz : ∃ j < P.n, st.z j = 0
  · rw [if_pos hz] at hlu; cases hlu
  rw [if_neg hz] at hlu
  push Not at hz
  set M := zMatQuadNC P.m P.n P.a (some fun j => st.x j / st.z j) with hM
  set t := eqRhs P st w1 w2 w3 with ht'
  set dy := zLESolveLU P.m lu.l lu.u t dy0 lu.idx with hdy
  have hD : eqLU P st lu w1 w2 w3 dy0 = ⟨fun j => - ((st.x j * (- (mulTVec P.m P.n P.a dy (fun _ => 0) j + w2 j)) + w3 j) / st.z j), dy,
      fun j => - (mulTVec P.m P.n P.a dy (fun _ => 0) j + w2 j)⟩ := by
    unfold eqLU
    dsimp only
    rw [if_pos hr]
  rw [hD]
  have hsol : ∀ i < P.m, ∑ k ∈ range P.m, M i k * dy k = t i := by
    obtain ⟨-, hlead⟩ := lu_leading P.etol P.m M lu hlu
    have hl' := hlead hr
    obtain ⟨p, -, -, -, hM', -, hl, hld, hu⟩ := zMatDecompLU_correct_partial P.etol ht P.m P.m M lu hlu (fun t ht => hl' t (by omega))
    refine zLESolveLU_correct P.m M lu.l lu.u t dy0 lu.idx p ?_ ?_ ?_ ?_ ?_
    · intro i j hi hj
      rw [hM' i j hi hj (by omega), hr]
    · intro i hi h0
      have := hld i (by omega)
      rw [h0, abs_zero] at this
      linarith
    · intro i j hij hj
      exact hl i j (by omega) (Or.inl hij)
    · intro i hi
      exact hl' i hi
    · intro i j hij hi
      exact hu i j (Or.inl hij)
  refine ⟨?_, ?_, ?_⟩
  · intro i hi
    have h := hsol i hi
    have e1 : ∑ k ∈ range P.m, M i k * dy k = ∑ j ∈ range P.n, P.a i j * (st.x j / st.z j * ∑ k ∈ range P.m, P.a k j * dy k) := by
      rw [sum_congr rfl (g := fun k => ∑ j ∈ range P.n, P.a i j * (st.x j / st.z j * (P.a k j * dy k))), sum_comm]
      · exact sum_congr rfl fun j _ => by rw [mul_sum, mul_sum]
      · intro k hk
        rw [hM, zMatQuadNC_spec _ _ _ _ i k hi (mem_range.1 hk), sum_mul]
        exact sum_congr rfl fun j _ => by simp only [wt]; ring
    have e2 : t i = - (∑ j ∈ range P.n, P.a i j * ((w2 j * st.x j - w3 j) / st.z j) + w1 i) := by
      rw [ht']
      unfold eqRhs
      rw [mulVec_spec, if_pos hi]
      rfl
    have e3 : ∑ j ∈ range P.n, P.a i j * - ((st.x j * (- (mulTVec P.m P.n P.a dy (fun _ => 0) j + w2 j)) + w3 j) / st.z j) =
        (∑ j ∈ range P.n, P.a i j * (st.x j / st.z j * ∑ k ∈ range P.m, P.a k j * dy k)) + ∑ j ∈ range P.n, P.a i j * ((w2 j * st.x j - w3 j) / st.z j) := by
      rw [← sum_add_distrib]
      refine sum_congr rfl fun j hj => ?_
      have := hz j (mem_range.1 hj)
      rw [mulTVec_spec, if_pos (mem_range.1 hj)]
      field_simp
      ring
    dsimp only
    rw [e3, ← e1, h, e2]
    ring
  · intro j hj
    dsimp only
    rw [mulTVec_spec, if_pos hj]
    ring
  · intro j hj
    have := hz j hj
    dsimp only
    field_simp
    ring

/-! ## The loop -/

/-- The constraints are linearly independent. -/
def FullRow (P : Prob K) : Prop := ∀ y : Nat → K, (∀ j < P.n, ∑ i ∈ range P.m, P.a i j * y i = 0) → ∀ i < P.m, y i = 0

/-- The point is in the interior. -/
def Pos (P : Prob K) (st : St K) : Prop := (∀ j < P.n, 0 < st.x j) ∧ ∀ j < P.n, 0 < st.z j

/-- Residual of the constraint number `i`. -/
def primal (P : Prob K) (st : St K) (i : Nat) : K := (∑ j ∈ range P.n, P.a i j * st.x j) - P.b i

/-- Residual of the dual constraint number `j`. -/
def dual (P : Prob K) (st : St K) (j : Nat) : K := (∑ i ∈ range P.m, P.a i j * st.y i) + st.z j - P.c j

theorem v1_eq (P : Prob K) (st : St K) (i : Nat) (hi : i < P.m) : v1 P st i = primal P st i := by
  unfold v1 primal
  rw [mulVec_spec, if_pos hi]; rfl

theorem v2_eq (P : Prob K) (st : St K) (j : Nat) (hj : j < P.n) : v2 P st j = dual P st j := by
  unfold v2 dual
  rw [mulTVec_spec, if_pos hj]

theorem gap_eq (P : Prob K) (st : St K) : gap P st = ∑ j ∈ range P.n, st.x j * st.z j := by
  unfold gap
  rw [forUp_add 0 P.n (fun j => v3 st j) 0 (Nat.zero_le _), zero_add, range_eq_Ico]; rfl

/-- In the interior the matrix of the equation is regular. -/
theorem luDecomp_full (P : Prob K) (he : P.etol = 0) (hA : FullRow P) (st : St K) (hp : Pos P st) : ∃ lu, luDecomp P st = .ok lu ∧ lu.r = P.m := by
  unfold luDecomp
  rw [if_neg (by push Not; exact fun j hj => (hp.2 j hj).ne'), he]
  obtain ⟨lu, e, hr, -⟩ := zMatDecompLU_nonsingular P.m (zMatQuadNC P.m P.n P.a (some fun j => st.x j / st.z j)) (by
    rintro ⟨y, ⟨i, hi, hy⟩, h0⟩
    have h1 := quadForm P.n P.m (fun j i => P.a i j) (fun j => st.x j / st.z j) y
    rw [sum_eq_zero (fun i hi => by
      have h2 := h0 i (mem_range.1 hi)
      rw [show ∑ k ∈ range P.m, (∑ j ∈ range P.n, st.x j / st.z j * P.a i j * P.a k j) * y k = 0 by
        rw [← h2]
        refine sum_congr rfl fun k hk => ?_
        rw [zMatQuadNC_spec _ _ _ _ i k (mem_range.1 hi) (mem_range.1 hk)]
        rfl, mul_zero])] at h1
    have hw : ∀ j < P.n, 0 < st.x j / st.z j := fun j hj => div_pos (hp.1 j hj) (hp.2 j hj)
    refine hy (hA y (fun j hj => ?_) i hi)
    have h3 := (sum_eq_zero_iff_of_nonneg (fun j hj => mul_nonneg (hw j (mem_range.1 hj)).le (sq_nonneg _))).1 h1.symm j (mem_range.2 hj)
    have h4 := (mul_eq_zero.1 h3).resolve_left (hw j hj).ne'
    exact pow_eq_zero_iff (two_ne_zero) |>.1 h4)
  exact ⟨lu, e, hr⟩

/-- The conditions under which the loop takes the residuals as small. -/
def Small (P : Prob K) (st : St K) : Prop :=
  (∀ i < P.m, |primal P st i| ≤ P.tol) ∧ (∀ j < P.n, |dual P st j| ≤ P.tol) ∧ |∑ j ∈ range P.n, st.x j * st.z j| ≤ P.tol

/-- What a turn does to a point in the interior. -/
def TurnOk (P : Prob K) (st st' : St K) : Option Exit → Prop
  | some .resid => st' = st ∧ Small P st
  | some .stall => st' = st ∧ ¬ Small P st
  | some .limit => False
  | none => ¬ Small P st ∧ Pos P st' ∧ ∃ ap ad : K, 0 ≤ ap ∧ ap ≤ 1 ∧ 0 ≤ ad ∧ ad ≤ 1 ∧ (0 < ap ∨ 0 < ad) ∧
      (∀ i < P.m, primal P st' i = (1 - ap) * primal P st i) ∧ ∀ j < P.n, dual P st' j = (1 - ad) * dual P st j

theorem small_iff (P : Prob K) (st : St K) :
    ((∀ i < P.m, zIsTol (v1 P st i) P.tol = true) ∧ (∀ j < P.n, zIsTol (v2 P st j) P.tol = true) ∧ zIsTol (gap P st) P.tol = true) ↔ Small P st := by
  unfold Small
  simp only [zIsTol, decide_eq_true_eq, gap_eq]
  constructor
  · rintro ⟨h1, h2, h3⟩
    exact ⟨fun i hi => by rw [← v1_eq P st i hi]; exact h1 i hi, fun j hj => by rw [← v2_eq P st j hj]; exact h2 j hj, h3⟩
  · rintro ⟨h1, h2, h3⟩
    exact ⟨fun i hi => by rw [v1_eq P st i hi]; exact h1 i hi, fun j hj => by rw [v2_eq P st j hj]; exact h2 j hj, h3⟩

/-- **C148** one turn from a point in the interior: no division by zero, and the next point is again in the interior, with the residuals multiplied by
`1 - ap` and `1 - ad`. -/
theorem turn_spec (P : Prob K) (he : P.etol = 0) (hn : 0 < P.n) (hA : FullRow P) (st : St K) (hp : Pos P st) :
    ∃ st' e, turn P st = .ok (st', e) ∧ TurnOk P st st' e := by
  unfold turn
  by_cases hs : Small P st
  · rw [if_pos ((small_iff P st).2 hs)]
    exact ⟨st, _, rfl, rfl, hs⟩
  rw [if_neg (fun h => hs ((small_iff P st).1 h))]
  obtain ⟨lu, hlu, hr⟩ := luDecomp_full P he hA st hp
  rw [hlu]
  simp only [Res.bind]
  set D := eqLU P st lu (v1 P st) (v2 P st) (v3 st) (fun _ => 0) with hD
  have hg : 0 < gap P st := by
    rw [gap_eq]
    exact sum_pos (fun j hj => mul_pos (hp.1 j (mem_range.1 hj)) (hp.2 j (mem_range.1 hj))) ⟨0, mem_range.2 hn⟩
  by_cases h1 : zIsTol (step P.etol P.n st.x D.dx) P.etol = true ∧ zIsTol (step P.etol P.n st.z D.dz) P.etol = true
  · rw [if_pos h1]; exact ⟨st, _, rfl, rfl, hs⟩
  rw [if_neg h1, if_neg hg.ne']
  set w3 := correct P st D (step P.etol P.n st.x D.dx) (step P.etol P.n st.z D.dz) (gap P st)
  set D2 := eqLU P st lu (fun _ => 0) (fun _ => 0) w3 (fun _ => 0) with hD2
  set dx := fun j => D.dx j + D2.dx j with hdx
  set dz := fun j => D.dz j + D2.dz j with hdz
  set ap := damped (step P.etol P.n st.x dx) with hap
  set ad := damped (step P.etol P.n st.z dz) with had
  by_cases h2 : zIsTol ap P.etol = true ∧ zIsTol ad P.etol = true
  · rw [if_pos h2]; exact ⟨st, _, rfl, rfl, hs⟩
  rw [if_neg h2]
  have he0 : (0:K) ≤ P.etol := he.ge
  obtain ⟨n1, n2, -⟩ := eqLU_newton P he0 st lu hlu hr (v1 P st) (v2 P st) (v3 st) (fun _ => 0)
  obtain ⟨m1, m2, -⟩ := eqLU_newton P he0 st lu hlu hr (fun _ => 0) (fun _ => 0) w3 (fun _ => 0)
  rw [← hD] at n1 n2
  rw [← hD2] at m1 m2
  have sp := damped_spec _ (step_spec P.etol he0 P.n st.x dx fun j hj => (hp.1 j hj).le).1
  have sd := damped_spec _ (step_spec P.etol he0 P.n st.z dz fun j hj => (hp.2 j hj).le).1
  rw [← hap] at sp
  rw [← had] at sd
  refine ⟨_, _, rfl, hs, ⟨?_, ?_⟩, ap, ad, sp.1, sp.2.1, sd.1, sd.2.1, ?_, ?_, ?_⟩
  · intro j hj
    dsimp only
    rw [hap, he]
    exact damped_pos P.n st.x dx hp.1 j hj
  · intro j hj
    dsimp only
    rw [had, he]
    exact damped_pos P.n st.z dz hp.2 j hj
  · simp only [zIsTol, decide_eq_true_eq, he, abs_nonpos_iff] at h2
    by_contra hc
    push Not at hc
    exact h2 ⟨le_antisymm hc.1 sp.1, le_antisymm hc.2 sd.1⟩
  · intro i hi
    have e1 := n1 i hi
    have e2 := m1 i hi
    rw [v1_eq P st i hi] at e1
    unfold primal at e1 ⊢
    dsimp only
    have : ∑ j ∈ range P.n, P.a i j * (st.x j + ap * dx j) = (∑ j ∈ range P.n, P.a i j * st.x j) +
        ap * ((∑ j ∈ range P.n, P.a i j * D.dx j) + ∑ j ∈ range P.n, P.a i j * D2.dx j) := by
      rw [← sum_add_distrib, mul_sum, ← sum_add_distrib]
      exact sum_congr rfl fun j _ => by rw [hdx]; ring
    rw [this, e1, e2]
    ring
  · intro j hj
    have e1 := n2 j hj
    have e2 := m2 j hj
    rw [v2_eq P st j hj] at e1
    unfold dual at e1 ⊢
    dsimp only
    have : ∑ i ∈ range P.m, P.a i j * (st.y i + ad * (D.dy i + D2.dy i)) = (∑ i ∈ range P.m, P.a i j * st.y i) +
        ad * ((∑ i ∈ range P.m, P.a i j * D.dy i) + ∑ i ∈ range P.m, P.a i j * D2.dy i) := by
      rw [← sum_add_distrib, mul_sum, ← sum_add_distrib]
      exact sum_congr rfl fun i _ => by ring
    rw [this]
    linear_combination ad * e1 + ad * e2

/-- What the loop does to a point in the interior. -/
theorem loop_spec (P : Prob K) (he : P.etol = 0) (hn : 0 < P.n) (hA : FullRow P) : ∀ (k : Nat) (st : St K), Pos P st →
    ∃ st' e, loop P k st = .ok (st', e) ∧ Pos P st' ∧ (e = .resid → Small P st') ∧
      (∃ θ : K, 0 ≤ θ ∧ θ ≤ 1 ∧ ∀ i < P.m, primal P st' i = θ * primal P st i) ∧
      ∃ φ : K, 0 ≤ φ ∧ φ ≤ 1 ∧ ∀ j < P.n, dual P st' j = φ * dual P st j := by
  intro k
  induction k with
  | zero =>
    intro st hp
    exact ⟨st, .limit, rfl, hp, fun h => (by cases h), ⟨1, zero_le_one, le_refl _, fun i _ => (one_mul _).symm⟩, 1, zero_le_one, le_refl _, fun i _ => (one_mul _).symm⟩
  | succ k ih =>
    intro st hp
    obtain ⟨st1, e1, h1, h2⟩ := turn_spec P he hn hA st hp
    unfold loop
    rw [h1]
    simp only [Res.bind]
    match e1, h2 with
    | some .resid, h2 =>
      obtain ⟨rfl, h⟩ := h2
      exact ⟨st1, .resid, rfl, hp, fun _ => h, ⟨1, zero_le_one, le_refl _, fun i _ => (one_mul _).symm⟩, 1, zero_le_one, le_refl _, fun i _ => (one_mul _).symm⟩
    | some .stall, h2 =>
      obtain ⟨rfl, -⟩ := h2
      exact ⟨st1, .stall, rfl, hp, fun h => (by cases h), ⟨1, zero_le_one, le_refl _, fun i _ => (one_mul _).symm⟩, 1, zero_le_one, le_refl _, fun i _ => (one_mul _).symm⟩
    | none, h2 =>
      obtain ⟨-, hp1, ap, ad, a0, a1, d0, d1, -, r1, r2⟩ := h2
      obtain ⟨st', e, h3, hp', hs, ⟨θ, t0, t1, h4⟩, φ, f0, f1, h5⟩ := ih st1 hp1
      refine ⟨st', e, h3, hp', hs, ⟨θ * (1 - ap), mul_nonneg t0 (by linarith), mul_le_one₀ t1 (by linarith) (by linarith), fun i hi => ?_⟩,
        φ * (1 - ad), mul_nonneg f0 (by linarith), mul_le_one₀ f1 (by linarith) (by linarith), fun j hj => ?_⟩
      · rw [h4 i hi, r1 i hi, mul_assoc]
      · rw [h5 j hj, r2 j hj, mul_assoc]

/-! ## The answer -/

/-- Conditions of optimality up to `tol`: the constraints of the problem and those of the dual problem hold up to `tol`, the variables of both are not
negative, and so is the duality gap. -/
structure NearOptimal (P : Prob K) (x y z : Nat → K) (tol : K) : Prop where
  xpos : ∀ j < P.n, 0 ≤ x j
  zpos : ∀ j < P.n, 0 ≤ z j
  primal : ∀ i < P.m, |(∑ j ∈ range P.n, P.a i j * x j) - P.b i| ≤ tol * (1 + ∑ j ∈ range P.n, |P.a i j|)
  dual : ∀ j < P.n, |(∑ i ∈ range P.m, P.a i j * y i) + z j - P.c j| ≤ tol
  gap : ∑ j ∈ range P.n, x j * z j ≤ tol

/-- What near optimality means for the cost: every feasible point costs at least as much, up to a multiple of `tol`. -/
theorem NearOptimal.cost {P : Prob K} {x y z : Nat → K} {tol : K} (h : NearOptimal P x y z tol) (x' : Nat → K)
    (hf : ∀ i < P.m, ∑ j ∈ range P.n, P.a i j * x' j = P.b i) (hx : ∀ j < P.n, 0 ≤ x' j) :
    ∑ j ∈ range P.n, P.c j * x j ≤ (∑ j ∈ range P.n, P.c j * x' j) +
      tol * (1 + ∑ i ∈ range P.m, |y i| * (1 + ∑ j ∈ range P.n, |P.a i j|) + ∑ j ∈ range P.n, |x j - x' j|) := by
  set v1 := fun i => (∑ j ∈ range P.n, P.a i j * x j) - P.b i with hv1
  set v2 := fun j => (∑ i ∈ range P.m, P.a i j * y i) + z j - P.c j with hv2
  have key : ∑ j ∈ range P.n, P.c j * x j - ∑ j ∈ range P.n, P.c j * x' j =
      (∑ i ∈ range P.m, y i * v1 i) + (∑ j ∈ range P.n, x j * z j) - (∑ j ∈ range P.n, z j * x' j) - ∑ j ∈ range P.n, v2 j * (x j - x' j) := by
    have e1 : ∑ i ∈ range P.m, y i * v1 i = ∑ j ∈ range P.n, (∑ i ∈ range P.m, P.a i j * y i) * (x j - x' j) := by
      have : ∀ i ∈ range P.m, y i * v1 i = ∑ j ∈ range P.n, P.a i j * y i * (x j - x' j) := by
        intro i hi
        rw [hv1]
        dsimp only
        rw [← hf i (mem_range.1 hi), ← sum_sub_distrib, mul_sum]
        exact sum_congr rfl fun j _ => by ring
      rw [sum_congr rfl this, sum_comm]
      exact sum_congr rfl fun j _ => by rw [sum_mul]
    rw [e1, ← sum_sub_distrib, ← sum_add_distrib, ← sum_sub_distrib, ← sum_sub_distrib]
    refine sum_congr rfl fun j _ => ?_
    rw [hv2]; ring
  have b1 : ∑ i ∈ range P.m, y i * v1 i ≤ ∑ i ∈ range P.m, tol * (|y i| * (1 + ∑ j ∈ range P.n, |P.a i j|)) := by
    refine sum_le_sum fun i hi => ?_
    have h1 := h.primal i (mem_range.1 hi)
    calc y i * v1 i ≤ |y i * v1 i| := le_abs_self _
      _ = |y i| * |v1 i| := abs_mul _ _
      _ ≤ |y i| * (tol * (1 + ∑ j ∈ range P.n, |P.a i j|)) := mul_le_mul_of_nonneg_left h1 (abs_nonneg _)
      _ = _ := by ring
  have b2 : 0 ≤ ∑ j ∈ range P.n, z j * x' j := sum_nonneg fun j hj => mul_nonneg (h.zpos j (mem_range.1 hj)) (hx j (mem_range.1 hj))
  have b3 : - ∑ j ∈ range P.n, v2 j * (x j - x' j) ≤ ∑ j ∈ range P.n, tol * |x j - x' j| := by
    rw [← sum_neg_distrib]
    refine sum_le_sum fun j hj => ?_
    have h1 := h.dual j (mem_range.1 hj)
    calc - (v2 j * (x j - x' j)) ≤ |v2 j * (x j - x' j)| := neg_le_abs _
      _ = |v2 j| * |x j - x' j| := abs_mul _ _
      _ ≤ tol * |x j - x' j| := mul_le_mul_of_nonneg_right h1 (abs_nonneg _)
  rw [← mul_sum] at b1 b3
  have := h.gap
  linarith

/-- **C149** the solver with exact comparisons inside of the iteration, for independent constraints: it does not divide by zero; the answer is not
negative, the cost is that of the answer; and if the loop was left because the residuals are small, the answer is optimal up to the tolerance.
Partial: the comparisons inside of the iteration use the tolerance too, the constraints may be dependent, and nothing is said of the other ways out of the
loop, for which the claim is false (below). -/
theorem zLPSolvePDIP_PC_optimal_partial (P : Prob K) (he : P.etol = 0) (ht : 0 < P.tol) (hn : 0 < P.n) (hA : FullRow P) (limit : Nat) (x0 : Nat → K) :
    ∃ R, zLPSolvePDIP_PC P limit x0 = .ok R ∧ (∀ j < P.n, 0 ≤ R.x j) ∧ R.cost = ∑ j ∈ range P.n, P.c j * R.x j ∧
      (R.exit = .resid → NearOptimal P R.x R.last.y R.last.z P.tol) := by
  unfold zLPSolvePDIP_PC init
  rw [if_neg hn.ne']
  simp only [Res.bind]
  set st0 : St K := ⟨shiftPos P.tol P.n (zLESolveMP P.etol P.etol P.sqrt P.m P.n P.a P.b none none x0), fun _ => 1,
    shiftPos P.tol P.n fun j => P.c j - mulTVec P.m P.n P.a (fun _ => 1) (fun _ => 0) j⟩
  obtain ⟨st', e, h1, hp, hs, -, -⟩ := loop_spec P he hn hA limit st0 ⟨shiftPos_pos P.tol ht P.n _, shiftPos_pos P.tol ht P.n _⟩
  rw [h1]
  simp only
  set x : Nat → K := fun j => if zIsTol (st'.x j) P.tol = true then 0 else st'.x j with hx
  have hx0 : ∀ j < P.n, 0 ≤ x j := by
    intro j hj
    rw [hx]; dsimp only
    split
    · exact le_refl _
    · exact (hp.1 j hj).le
  have hxd : ∀ j, |x j - st'.x j| ≤ P.tol := by
    intro j
    rw [hx]; dsimp only
    split
    · rename_i h
      simp only [zIsTol, decide_eq_true_eq] at h
      rwa [zero_sub, abs_neg]
    · rw [sub_self, abs_zero]; exact ht.le
  have hxl : ∀ j < P.n, x j ≤ st'.x j := by
    intro j hj
    rw [hx]; dsimp only
    split
    · exact (hp.1 j hj).le
    · exact le_refl _
  refine ⟨_, rfl, hx0, ?_, ?_⟩
  · rw [inner_spec]
    dsimp only
    exact sum_congr rfl fun j _ => mul_comm (x j) (P.c j)
  · intro hr
    obtain ⟨s1, s2, s3⟩ := hs hr
    refine ⟨hx0, fun j hj => (hp.2 j hj).le, ?_, s2, ?_⟩
    · intro i hi
      have e1 : (∑ j ∈ range P.n, P.a i j * x j) - P.b i = primal P st' i + ∑ j ∈ range P.n, P.a i j * (x j - st'.x j) := by
        unfold primal
        rw [show ∑ j ∈ range P.n, P.a i j * (x j - st'.x j) = (∑ j ∈ range P.n, P.a i j * x j) - ∑ j ∈ range P.n, P.a i j * st'.x j by
          rw [← sum_sub_distrib]; exact sum_congr rfl fun j _ => by ring]
        ring
      rw [e1]
      refine (abs_add_le _ _).trans ?_
      have h2 : |∑ j ∈ range P.n, P.a i j * (x j - st'.x j)| ≤ ∑ j ∈ range P.n, |P.a i j| * P.tol :=
        (abs_sum_le_sum_abs _ _).trans (sum_le_sum fun j _ => by rw [abs_mul]; exact mul_le_mul_of_nonneg_left (hxd j) (abs_nonneg _))
      rw [← sum_mul] at h2
      have := s1 i hi
      linarith
    · refine le_trans ?_ ((le_abs_self _).trans s3)
      exact sum_le_sum fun j hj => mul_le_mul_of_nonneg_right (hxl j (mem_range.1 hj)) (hp.2 j (mem_range.1 hj)).le

/-- **C148** the residuals of the constraints and of the dual constraints at the last point are those of the first point times numbers between zero and
one. -/
theorem zLPSolvePDIP_PC_residuals_partial (P : Prob K) (he : P.etol = 0) (ht : 0 < P.tol) (hn : 0 < P.n) (hA : FullRow P) (limit : Nat) (x0 : Nat → K)
    (R : Ans K) (h : zLPSolvePDIP_PC P limit x0 = .ok R) : ∃ st0, init P x0 = .ok st0 ∧
      (∃ θ : K, 0 ≤ θ ∧ θ ≤ 1 ∧ ∀ i < P.m, primal P R.last i = θ * primal P st0 i) ∧
      ∃ φ : K, 0 ≤ φ ∧ φ ≤ 1 ∧ ∀ j < P.n, dual P R.last j = φ * dual P st0 j := by
  unfold zLPSolvePDIP_PC at h
  have hi : ∃ st0, init P x0 = .ok st0 ∧ Pos P st0 := by
    unfold init
    rw [if_neg hn.ne']
    exact ⟨_, rfl, shiftPos_pos P.tol ht P.n _, shiftPos_pos P.tol ht P.n _⟩
  obtain ⟨st0, e0, hp0⟩ := hi
  obtain ⟨st', e, h1, -, -, h2, h3⟩ := loop_spec P he hn hA limit st0 hp0
  rw [e0] at h
  simp only [Res.bind] at h
  rw [h1] at h
  simp only at h
  cases h
  exact ⟨st0, e0, h2, h3⟩

/-! ## Examples, and where the claims fail -/

/-- Problems with one constraint over the rational numbers; the only root that is taken is that of 1 or of 25. -/
def prob (tol etol : ℚ) (a : List ℚ) (b : ℚ) (c : List ℚ) : Prob ℚ :=
  { n := a.length, m := 1, a := fun _ j => a.getD j 0, b := fun _ => b, c := fun j => c.getD j 0, tol := tol, etol := etol,
    sqrt := fun x => if x = 25 then 5 else x, deg := fun _ v => v }

/-- The hypotheses of the theorems are met: `2 x - y → min`, `3 x + 4 y = 1`, and the loop is left after a turn because the residuals are small. -/
example : (prob (1/20) 0 [3, 4] 1 [2, -1]).etol = 0 ∧ 0 < (prob (1/20) 0 [3, 4] 1 [2, -1]).tol ∧ FullRow (prob (1/20) 0 [3, 4] 1 [2, -1]) ∧
    (match zLPSolvePDIP_PC (prob (1/20) 0 [3, 4] 1 [2, -1]) 10 (fun _ => 0) with
      | .ok R => decide (R.exit = .resid) && decide (R.last.y 0 ≠ 1) | _ => false) = true := by
  refine ⟨rfl, by norm_num [prob], ?_, by decide +kernel⟩
  intro y h i hi
  have h0 := h 0 (by simp [prob])
  simp [prob] at h0 hi
  rw [hi]; exact h0

/-- **C149 is violated**: `y → min` subject to `3 x + 4 y = 1`.  The point `(1/3, 0)` is feasible and costs nothing; the solver returns true with the
cost 4/25, because no direction is negative and the step is taken to be zero. -/
theorem zLPSolvePDIP_PC_suboptimal_violated :
    (match zLPSolvePDIP_PC (prob (1/10^12) (1/10^12) [3, 4] 1 [0, 1]) 10000 (fun _ => 0) with
      | .ok R => decide (R.x 0 = 3/25) && decide (R.x 1 = 4/25) && decide (R.cost = 4/25) | _ => false) = true ∧
    (3:ℚ) * (1/3) + 4 * 0 = 1 ∧ (0:ℚ) * (1/3) + 1 * 0 < 4/25 := by
  refine ⟨by decide +kernel, by norm_num, by norm_num⟩

/-- **C149 is violated**: the constraint `x = -1` has no solution with `x ≥ 0`; the solver returns true and the answer zero. -/
theorem zLPSolvePDIP_PC_infeasible_violated :
    (match zLPSolvePDIP_PC (prob (1/10^12) (1/10^12) [1] (-1) [0]) 10000 (fun _ => 0) with
      | .ok R => decide (R.x 0 = 0) | _ => false) = true ∧ ¬ ∃ x : ℚ, 0 ≤ x ∧ 1 * x = -1 := by
  refine ⟨by decide +kernel, ?_⟩
  rintro ⟨x, h1, h2⟩
  linarith

/-- **C149 is violated**: `-y → min` subject to `x = 1` has no minimum; the solver returns true and the answer `(1, 0)` up to the tolerance. -/
theorem zLPSolvePDIP_PC_unbounded_violated :
    (match zLPSolvePDIP_PC (prob (1/10^12) (1/10^12) [1, 0] 1 [0, -1]) 10000 (fun _ => 0) with
      | .ok R => decide (R.x 0 = 1 + 1/10^12) && decide (R.x 1 = 0) | _ => false) = true ∧
    ∀ B : ℚ, ∃ x y : ℚ, 0 ≤ x ∧ 0 ≤ y ∧ 1 * x + 0 * y = 1 ∧ 0 * x + -1 * y < B := by
  refine ⟨by decide +kernel, fun B => ⟨1, |B| + 1, zero_le_one, by positivity, by norm_num, ?_⟩⟩
  have := neg_abs_le B
  linarith

end Zm.PDIP
