import Verif.Model.Container
import Mathlib.Algebra.BigOperators.Intervals
import Mathlib.Algebra.Order.BigOperators.Group.Finset
import Mathlib.Tactic.Linarith
import Mathlib.Tactic.FieldSimp
import Mathlib.Tactic.Ring
import Mathlib.Data.List.Perm.Basic

/-! # Properties of the vector containers (C40 - C43, C74, C83, C84) -/

set_option linter.unusedSectionVars false

namespace Zm.Cont
open Zm Finset

/-! ## Distances -/

theorem forUp_sum0 {K : Type*} [AddCommMonoid K] (n : Nat) (f : Nat → K) : forUp 0 n (fun i d => d + f i) 0 = ∑ i ∈ range n, f i := by
  refine forUp_inv (lo := 0) (hi := n) (fun i d => d + f i) 0 (P := fun m d => d = ∑ i ∈ range m, f i) (by omega) (by simp) ?_
  intro i t _ _ ih
  rw [ih, sum_range_succ]

/-- Euclidean distance of the first `n` components. -/
noncomputable def euclid (n : Nat) (a b : Nat → ℝ) : ℝ := Real.sqrt (∑ i ∈ range n, (a i - b i)^2)

theorem zVecSqrDist_spec {K : Type*} [Field K] (n : Nat) (a b : Nat → K) : zVecSqrDist n a b = ∑ i ∈ range n, (a i - b i)^2 := by
  unfold zVecSqrDist
  rw [forUp_sum0]
  exact sum_congr rfl fun i _ => by ring

theorem zVecDist_spec (n : Nat) (a b : Nat → ℝ) : zVecDist n a b = euclid n a b := by
  unfold zVecDist euclid; rw [zVecSqrDist_spec]

theorem sq_sum_nonneg (n : Nat) (a : Nat → ℝ) : 0 ≤ ∑ i ∈ range n, (a i)^2 := sum_nonneg fun i _ => sq_nonneg _

theorem euclid_nonneg (n : Nat) (a b : Nat → ℝ) : 0 ≤ euclid n a b := Real.sqrt_nonneg _

theorem euclid_sq (n : Nat) (a b : Nat → ℝ) : euclid n a b * euclid n a b = ∑ i ∈ range n, (a i - b i)^2 :=
  Real.mul_self_sqrt (sq_sum_nonneg n fun i => a i - b i)

/-! ## C83: distance to an edge -/

/-- **C83.** For a non-degenerate edge the value of `zVecEdgeDist` is the distance to the straight line through the two ends: it is
attained at a point of the line, and no point of the line is nearer. -/
theorem zVecEdgeDist_line (tol : ℝ) (htol : 0 ≤ tol) (n : Nat) (v v1 v2 : Nat → ℝ) (h : tol < ∑ i ∈ range n, (v2 i - v1 i)^2) :
    (∃ s : ℝ, zVecEdgeDist tol n v v1 v2 = euclid n v (fun i => v1 i + s * (v2 i - v1 i))) ∧
    (∀ s : ℝ, zVecEdgeDist tol n v v1 v2 ≤ euclid n v (fun i => v1 i + s * (v2 i - v1 i))) := by
  have hnd : forUp 0 n (fun i (p : ℝ × ℝ) => (p.1 + (v i - v1 i) * (v2 i - v1 i), p.2 + (v2 i - v1 i) * (v2 i - v1 i))) (0, 0) =
      (∑ i ∈ range n, (v i - v1 i) * (v2 i - v1 i), ∑ i ∈ range n, (v2 i - v1 i)^2) := by
    refine forUp_inv (lo := 0) (hi := n) _ ((0, 0) : ℝ × ℝ) (P := fun m (p : ℝ × ℝ) => p = (∑ i ∈ range m, (v i - v1 i) * (v2 i - v1 i), ∑ i ∈ range m, (v2 i - v1 i)^2)) (by omega) (by simp) ?_
    intro i t _ _ ih
    rw [ih, sum_range_succ, sum_range_succ]
    simp only [Prod.mk.injEq, true_and]
    ring
  have hval : zVecEdgeDist tol n v v1 v2 = euclid n v (fun i => v1 i + ((∑ i ∈ range n, (v i - v1 i) * (v2 i - v1 i)) / (∑ i ∈ range n, (v2 i - v1 i)^2)) * (v2 i - v1 i)) := by
    unfold zVecEdgeDist euclid
    simp only
    rw [hnd]
    simp only
    rw [if_neg (not_le.mpr (lt_of_lt_of_le h (le_abs_self _))), forUp_sum0]
    congr 1
    exact sum_congr rfl fun i _ => by ring
  refine ⟨⟨_, hval⟩, fun s => ?_⟩
  rw [hval]
  unfold euclid
  apply Real.sqrt_le_sqrt
  have expand : ∀ s : ℝ, ∑ i ∈ range n, (v i - (v1 i + s * (v2 i - v1 i)))^2 =
      ∑ i ∈ range n, (v i - v1 i)^2 - 2 * s * (∑ i ∈ range n, (v i - v1 i) * (v2 i - v1 i)) + s^2 * ∑ i ∈ range n, (v2 i - v1 i)^2 := by
    intro s
    rw [mul_sum, mul_sum, ← sum_sub_distrib, ← sum_add_distrib]
    exact sum_congr rfl fun i _ => by ring
  rw [expand, expand]
  generalize ∑ i ∈ range n, (v i - v1 i) * (v2 i - v1 i) = N
  generalize hD : ∑ i ∈ range n, (v2 i - v1 i)^2 = D at h
  have hDp : 0 < D := lt_of_le_of_lt htol h
  have key : (∑ i ∈ range n, (v i - v1 i)^2 - 2 * s * N + s^2 * D) - (∑ i ∈ range n, (v i - v1 i)^2 - 2 * (N / D) * N + (N / D)^2 * D) = (s * D - N)^2 / D := by
    generalize ∑ i ∈ range n, (v i - v1 i)^2 = S
    field_simp
    ring
  have : 0 ≤ (s * D - N)^2 / D := by positivity
  linarith

/-- **C83.** A degenerate edge: the distance to its first end. -/
theorem zVecEdgeDist_degenerate (tol : ℝ) (n : Nat) (v v1 v2 : Nat → ℝ) (h : ∑ i ∈ range n, (v2 i - v1 i)^2 ≤ tol) :
    zVecEdgeDist tol n v v1 v2 = euclid n v v1 := by
  have hnd : (forUp 0 n (fun i (p : ℝ × ℝ) => (p.1 + (v i - v1 i) * (v2 i - v1 i), p.2 + (v2 i - v1 i) * (v2 i - v1 i))) (0, 0)).2 =
      ∑ i ∈ range n, (v2 i - v1 i)^2 := by
    refine forUp_inv (lo := 0) (hi := n) _ ((0, 0) : ℝ × ℝ) (P := fun m (p : ℝ × ℝ) => p.2 = ∑ i ∈ range m, (v2 i - v1 i)^2) (by omega) (by simp) ?_
    intro i t _ _ ih
    simp only
    rw [ih, sum_range_succ]
    ring
  unfold zVecEdgeDist
  simp only
  rw [hnd, abs_of_nonneg (sq_sum_nonneg n fun i => v2 i - v1 i), if_pos h, zVecDist_spec]

/-- **C83 is violated.** The value is not the distance to the edge, the segment that connects the two ends: the point (2) is at
distance 1 from the edge between (0) and (1), but the function returns 0. -/
theorem zVecEdgeDist_violated (tol : ℝ) (htol : 0 ≤ tol) (h1 : tol < 1) :
    zVecEdgeDist tol 1 (fun _ => 2) (fun _ => 0) (fun _ => 1) = 0 ∧
    ∀ s : ℝ, 0 ≤ s → s ≤ 1 → 1 ≤ euclid 1 (fun _ => 2) (fun i => (0:ℝ) + s * (1 - 0)) := by
  constructor
  · have := (zVecEdgeDist_line tol htol 1 (fun _ => 2) (fun _ => 0) (fun _ => 1) (by simpa using h1)).2 2
    have h0 : 0 ≤ zVecEdgeDist tol 1 (fun _ => 2) (fun _ => 0) (fun _ => 1) := by
      obtain ⟨s, hs⟩ := (zVecEdgeDist_line tol htol 1 (fun _ => 2) (fun _ => 0) (fun _ => 1) (by simpa using h1)).1
      rw [hs]; exact euclid_nonneg ..
    have e : euclid 1 (fun _ => 2) (fun _ => (0:ℝ) + 2 * (1 - 0)) = 0 := by
      unfold euclid; simp
    rw [e] at this
    exact le_antisymm this h0
  · intro s h0 h1
    unfold euclid
    rw [Real.one_le_sqrt, sum_range_one]
    nlinarith

/-- **C83, the proved part.** If the foot of the perpendicular lies on the edge, the value is the distance to the edge. -/
theorem zVecEdgeDist_partial (tol : ℝ) (htol : 0 ≤ tol) (n : Nat) (v v1 v2 : Nat → ℝ) (h : tol < ∑ i ∈ range n, (v2 i - v1 i)^2)
    (h0 : 0 ≤ ∑ i ∈ range n, (v i - v1 i) * (v2 i - v1 i)) (h1 : ∑ i ∈ range n, (v i - v1 i) * (v2 i - v1 i) ≤ ∑ i ∈ range n, (v2 i - v1 i)^2) :
    (∃ s : ℝ, 0 ≤ s ∧ s ≤ 1 ∧ zVecEdgeDist tol n v v1 v2 = euclid n v (fun i => v1 i + s * (v2 i - v1 i))) ∧
    (∀ s : ℝ, 0 ≤ s → s ≤ 1 → zVecEdgeDist tol n v v1 v2 ≤ euclid n v (fun i => v1 i + s * (v2 i - v1 i))) := by
  have hDp : 0 < ∑ i ∈ range n, (v2 i - v1 i)^2 := lt_of_le_of_lt htol h
  refine ⟨⟨(∑ i ∈ range n, (v i - v1 i) * (v2 i - v1 i)) / (∑ i ∈ range n, (v2 i - v1 i)^2), div_nonneg h0 hDp.le, (div_le_one hDp).mpr h1, ?_⟩,
    fun s _ _ => (zVecEdgeDist_line tol htol n v v1 v2 h).2 s⟩
  have hnd : forUp 0 n (fun i (p : ℝ × ℝ) => (p.1 + (v i - v1 i) * (v2 i - v1 i), p.2 + (v2 i - v1 i) * (v2 i - v1 i))) (0, 0) =
      (∑ i ∈ range n, (v i - v1 i) * (v2 i - v1 i), ∑ i ∈ range n, (v2 i - v1 i)^2) := by
    refine forUp_inv (lo := 0) (hi := n) _ ((0, 0) : ℝ × ℝ) (P := fun m (p : ℝ × ℝ) => p = (∑ i ∈ range m, (v i - v1 i) * (v2 i - v1 i), ∑ i ∈ range m, (v2 i - v1 i)^2)) (by omega) (by simp) ?_
    intro i t _ _ ih
    rw [ih, sum_range_succ, sum_range_succ]
    simp only [Prod.mk.injEq, true_and]
    ring
  unfold zVecEdgeDist euclid
  simp only
  rw [hnd]
  simp only
  rw [if_neg (not_le.mpr (lt_of_lt_of_le h (le_abs_self _))), forUp_sum0]
  congr 1
  exact sum_congr rfl fun i _ => by ring

/-! ## C84: projection and orthogonalisation -/

section
variable {K : Type*} [Field K] [LinearOrder K] [IsStrictOrderedRing K]

/-- **C84.** The projection is the multiple of `n` for which the rest is orthogonal to `n`; entries beyond the size are untouched. -/
theorem zVecProj_spec (m : Nat) (v n pv : Nat → K) (h : ∑ i ∈ range m, n i * n i ≠ 0) :
    ∃ pv', zVecProj m v n pv = .ok pv' ∧ (∃ c, ∀ i, i < m → pv' i = c * n i) ∧ ∑ i ∈ range m, (v i - pv' i) * n i = 0 ∧ ∀ i, m ≤ i → pv' i = pv i := by
  unfold zVecProj
  rw [forUp_sum0, forUp_sum0]
  simp only
  rw [if_neg h, forUp_set1 (lo := 0) (hi := m) _ pv (fun i => n i * ((∑ i ∈ range m, v i * n i) / ∑ i ∈ range m, n i * n i)) (fun _ _ _ _ _ _ => rfl)]
  refine ⟨_, rfl, ⟨(∑ i ∈ range m, v i * n i) / ∑ i ∈ range m, n i * n i, fun i hi => ?_⟩, ?_, fun i hi => ?_⟩
  · rw [if_pos (by omega), mul_comm]
  · have : ∀ i ∈ range m, (v i - if 0 ≤ i ∧ i < m then n i * ((∑ i ∈ range m, v i * n i) / ∑ i ∈ range m, n i * n i) else pv i) * n i =
        v i * n i - ((∑ i ∈ range m, v i * n i) / ∑ i ∈ range m, n i * n i) * (n i * n i) := by
      intro i hi
      rw [mem_range] at hi
      rw [if_pos (by omega)]
      ring
    rw [sum_congr rfl this, sum_sub_distrib, ← mul_sum, div_mul_cancel₀ _ h, sub_self]
  · rw [if_neg (by omega)]

/-- **C84.** The orthogonalised vector is orthogonal to `n` and differs from `v` by a multiple of `n`. -/
theorem zVecOrthogonalize_spec (m : Nat) (v n ov : Nat → K) (h : ∑ i ∈ range m, n i * n i ≠ 0) :
    ∃ ov', zVecOrthogonalize m v n ov = .ok ov' ∧ ∑ i ∈ range m, ov' i * n i = 0 ∧ ∃ c, ∀ i, i < m → v i = ov' i + c * n i := by
  obtain ⟨pv, h1, ⟨c, h2⟩, h3, _⟩ := zVecProj_spec m v n ov h
  unfold zVecOrthogonalize
  rw [h1]
  simp only [Res.bind]
  rw [forUp_set1 (lo := 0) (hi := m) _ pv (fun i => v i - pv i) (fun i w h1 h2 h3 h4 => by rw [h4 i (by omega)])]
  refine ⟨_, rfl, ?_, c, fun i hi => ?_⟩
  · rw [← h3]
    refine sum_congr rfl fun i hi => ?_
    rw [mem_range] at hi
    rw [if_pos (by omega)]
  · rw [if_pos (by omega), h2 i hi]
    ring

/-- **C84 is violated** when the result is stored in the argument: it becomes zero, whatever `v` and `n ≠ 0` are. -/
theorem zVecOrthogonalize_alias_violated (m : Nat) (v n : Nat → K) (h : ∑ i ∈ range m, n i * n i ≠ 0) :
    ∃ v', zVecOrthogonalizeAlias m v n = .ok v' ∧ ∀ i, i < m → v' i = 0 := by
  obtain ⟨pv, h1, _⟩ := zVecProj_spec m v n v h
  unfold zVecOrthogonalizeAlias
  rw [h1]
  simp only [Res.bind]
  rw [forUp_set1 (lo := 0) (hi := m) _ pv (fun _ => 0) (fun i w h1 h2 h3 h4 => by rw [sub_self])]
  refine ⟨_, rfl, fun i hi => ?_⟩
  rw [if_pos (by omega)]

/-- **C84.** A zero direction divides zero by zero. -/
theorem zVecProj_zero_ub (m : Nat) (v n pv : Nat → K) (h : ∀ i, i < m → n i = 0) : zVecProj m v n pv = .ub := by
  unfold zVecProj
  rw [forUp_sum0]
  simp only
  rw [if_pos]
  exact sum_eq_zero fun i hi => by rw [mem_range] at hi; rw [h i hi, mul_zero]

end

example : ∑ i ∈ range 2, ((fun i => if i = 0 then 3 else 4 : Nat → ℚ) i) * ((fun i => if i = 0 then 3 else 4 : Nat → ℚ) i) ≠ 0 := by
  rw [sum_range_succ, sum_range_succ]; norm_num

/-! ## C40: kd-tree -/

/-- The vectors stored in a tree. -/
def points : Tree → List (Nat → ℝ)
  | .nil => []
  | .node _ v _ _ s0 s1 => v :: (points s0 ++ points s1)

theorem points_treeAdd (n : Nat) (x : Nat → ℝ) (T : Tree) (h : T ≠ .nil) : (points (treeAdd n x T)).Perm (x :: points T) := by
  induction T with
  | nil => exact absurd rfl h
  | node sp v lo hi s0 s1 ih0 ih1 =>
    unfold treeAdd
    by_cases hb : x sp ≥ v sp
    · rw [if_pos hb]
      cases s0 with
      | nil => simp only [points, leaf, List.nil_append, List.append_nil, List.cons_append]; exact List.Perm.swap ..
      | node a b c d e f =>
        simp only
        rw [points]
        refine ((List.Perm.append_right _ (ih0 (by simp))).cons v).trans ?_
        rw [points.eq_def (.node sp v lo hi _ _)]
        exact List.Perm.swap ..
    · rw [if_neg hb]
      cases s1 with
      | nil =>
        simp only [points, leaf, List.append_nil]
        exact (List.perm_append_comm.cons v).trans (List.Perm.swap ..)
      | node a b c d e f =>
        simp only
        rw [points]
        refine ((List.Perm.append_left _ (ih1 (by simp))).cons v).trans ?_
        exact (List.perm_middle.cons v).trans (List.Perm.swap x v _)

theorem points_zVecTreeAdd (n : Nat) (x : Nat → ℝ) (T : Tree) : (points (zVecTreeAdd n T x)).Perm (x :: points T) := by
  cases T with
  | nil => simp [zVecTreeAdd, points, leaf]
  | node a b c d e f => exact points_treeAdd n x _ (by simp)

/-- `x` lies in the box. -/
def InBox (n : Nat) (lo hi : Nat → Option ℝ) (x : Nat → ℝ) : Prop :=
  ∀ i, i < n → (∀ m, lo i = some m → m ≤ x i) ∧ (∀ m, hi i = some m → x i ≤ m)

/-- Invariant: the stored boxes are the cells cut by the ancestors, and every vector lies in its cell. -/
def WF (n : Nat) : Tree → (Nat → Option ℝ) → (Nat → Option ℝ) → Prop
  | .nil, _, _ => True
  | .node sp v lo hi s0 s1, lo', hi' => lo = lo' ∧ hi = hi' ∧ sp < n ∧ InBox n lo hi v ∧
      WF n s0 (set1 lo sp (some (v sp))) hi ∧ WF n s1 lo (set1 hi sp (some (v sp)))

theorem inBox_lo (n : Nat) (lo hi : Nat → Option ℝ) (x : Nat → ℝ) (h : InBox n lo hi x) (sp : Nat) (m : ℝ) (hm : m ≤ x sp) : InBox n (set1 lo sp (some m)) hi x := by
  intro i hi'
  refine ⟨fun m' hm' => ?_, (h i hi').2⟩
  by_cases e : i = sp
  · subst e
    rw [set1_same] at hm'
    injection hm' with hm'; rw [← hm']; exact hm
  · rw [set1_ne _ _ e] at hm'
    exact (h i hi').1 m' hm'

theorem inBox_hi (n : Nat) (lo hi : Nat → Option ℝ) (x : Nat → ℝ) (h : InBox n lo hi x) (sp : Nat) (m : ℝ) (hm : x sp ≤ m) : InBox n lo (set1 hi sp (some m)) x := by
  intro i hi'
  refine ⟨(h i hi').1, fun m' hm' => ?_⟩
  by_cases e : i = sp
  · subst e
    rw [set1_same] at hm'
    injection hm' with hm'; rw [← hm']; exact hm
  · rw [set1_ne _ _ e] at hm'
    exact (h i hi').2 m' hm'

theorem WF_treeAdd (n : Nat) (hn : 0 < n) (x : Nat → ℝ) (T : Tree) (lo hi : Nat → Option ℝ) (h : WF n T lo hi) (hx : InBox n lo hi x) : WF n (treeAdd n x T) lo hi := by
  induction T generalizing lo hi with
  | nil => exact h
  | node sp v lo' hi' s0 s1 ih0 ih1 =>
    obtain ⟨rfl, rfl, h1, h2, h3, h4⟩ := h
    unfold treeAdd
    by_cases hb : x sp ≥ v sp
    · rw [if_pos hb]
      have hx' := inBox_lo n _ _ x hx sp (v sp) hb
      cases s0 with
      | nil => exact ⟨rfl, rfl, h1, h2, ⟨rfl, rfl, Nat.mod_lt _ hn, hx', trivial, trivial⟩, h4⟩
      | node a b c d e f => exact ⟨rfl, rfl, h1, h2, ih0 _ _ h3 hx', h4⟩
    · rw [if_neg hb]
      have hx' := inBox_hi n _ _ x hx sp (v sp) (not_le.mp hb).le
      cases s1 with
      | nil => exact ⟨rfl, rfl, h1, h2, h3, ⟨rfl, rfl, Nat.mod_lt _ hn, hx', trivial, trivial⟩⟩
      | node a b c d e f => exact ⟨rfl, rfl, h1, h2, h3, ih1 _ _ h4 hx'⟩

theorem WF_zVecTreeAdd (n : Nat) (hn : 0 < n) (x : Nat → ℝ) (T : Tree) (h : WF n T (fun _ => none) (fun _ => none)) :
    WF n (zVecTreeAdd n T x) (fun _ => none) (fun _ => none) := by
  have hx : InBox n (fun _ => none) (fun _ => none) x := fun i _ => ⟨fun m h => by simp at h, fun m h => by simp at h⟩
  cases T with
  | nil => exact ⟨rfl, rfl, hn, hx, trivial, trivial⟩
  | node a b c d e f => exact WF_treeAdd n hn x _ _ _ h hx

theorem WF_points (n : Nat) (T : Tree) (lo hi : Nat → Option ℝ) (h : WF n T lo hi) (x : Nat → ℝ) (hx : x ∈ points T) : InBox n lo hi x := by
  induction T generalizing lo hi with
  | nil => simp [points] at hx
  | node sp v lo' hi' s0 s1 ih0 ih1 =>
    obtain ⟨rfl, rfl, h1, h2, h3, h4⟩ := h
    simp only [points, List.mem_cons, List.mem_append] at hx
    rcases hx with rfl | hx | hx
    · exact h2
    · have g := ih0 _ _ h3 hx
      intro i hi
      refine ⟨fun m hm => ?_, (g i hi).2⟩
      by_cases e : i = sp
      · subst e
        exact le_trans ((h2 i hi).1 m hm) ((g i hi).1 (v i) (set1_same ..))
      · exact (g i hi).1 m (by rw [set1_ne _ _ e]; exact hm)
    · have g := ih1 _ _ h4 hx
      intro i hi
      refine ⟨(g i hi).1, fun m hm => ?_⟩
      by_cases e : i = sp
      · subst e
        exact le_trans ((g i hi).2 (v i) (set1_same ..)) ((h2 i hi).2 m hm)
      · exact (g i hi).2 m (by rw [set1_ne _ _ e]; exact hm)

theorem boxDist_le (n : Nat) (lo hi : Nat → Option ℝ) (q x : Nat → ℝ) (h : InBox n lo hi x) : boxDist n lo hi q ≤ ∑ i ∈ range n, (x i - q i)^2 := by
  unfold boxDist
  refine forUp_inv (lo := 0) (hi := n) _ (0:ℝ) (P := fun m d => d ≤ ∑ i ∈ range m, (x i - q i)^2) (by omega) (by simp) ?_
  intro i d _ hi' ih
  rw [sum_range_succ]
  obtain ⟨g1, g2⟩ := h i hi'
  simp only
  cases h1 : lo i with
  | none =>
    simp only
    cases h2 : hi i with
    | none => simp only; nlinarith [sq_nonneg (x i - q i)]
    | some m2 =>
      simp only
      split
      · have := g2 m2 h2; nlinarith
      · nlinarith [sq_nonneg (x i - q i)]
  | some m1 =>
    have k1 := g1 m1 h1
    simp only
    cases h2 : hi i with
    | none =>
      simp only
      split
      · nlinarith
      · nlinarith [sq_nonneg (x i - q i)]
    | some m2 =>
      have k2 := g2 m2 h2
      simp only
      split
      · rw [if_neg (by linarith)]; nlinarith
      · split
        · nlinarith
        · nlinarith [sq_nonneg (x i - q i)]

/-- The state is the nearest of the vectors `l`. -/
def Good (n : Nat) (q : Nat → ℝ) (l : List (Nat → ℝ)) (s : NN) : Prop :=
  (s.dmin = none ∧ l = []) ∨ ∃ u ∈ l, s.nn = some u ∧ s.dmin = some (euclid n u q) ∧ ∀ y ∈ l, euclid n u q ≤ euclid n y q

theorem Good.congr {n : Nat} {q : Nat → ℝ} {l l' : List (Nat → ℝ)} {s : NN} (h : Good n q l s) (hp : ∀ x, x ∈ l ↔ x ∈ l') : Good n q l' s := by
  rcases h with ⟨h1, h2⟩ | ⟨u, h1, h2, h3, h4⟩
  · refine Or.inl ⟨h1, ?_⟩
    subst h2
    exact List.eq_nil_iff_forall_not_mem.mpr fun x hx => by simpa using (hp x).mpr hx
  · exact Or.inr ⟨u, (hp u).mp h1, h2, h3, fun y hy => h4 y ((hp y).mpr hy)⟩

theorem nnTest_good (n : Nat) (v q : Nat → ℝ) (l : List (Nat → ℝ)) (s : NN) (h : Good n q l s) : Good n q (v :: l) (nnTest n v q s) := by
  unfold nnTest
  rcases h with ⟨h1, rfl⟩ | ⟨u, h1, h2, h3, h4⟩
  · rw [h1]
    refine Or.inr ⟨v, by simp, rfl, ?_, by simp⟩
    rw [zVecDist_spec]
  · rw [h3]
    simp only
    rw [zVecDist_spec]
    split
    · rename_i hlt
      refine Or.inr ⟨v, by simp, rfl, rfl, fun y hy => ?_⟩
      rcases List.mem_cons.mp hy with rfl | hy
      · exact le_refl _
      · exact hlt.le.trans (h4 y hy)
    · rename_i hlt
      refine Or.inr ⟨u, by simp [h1], h2, h3, fun y hy => ?_⟩
      rcases List.mem_cons.mp hy with rfl | hy
      · exact not_lt.mp hlt
      · exact h4 y hy

theorem prune_good (tol : ℝ) (htol : 0 ≤ tol) (n : Nat) (q : Nat → ℝ) (lo hi : Nat → Option ℝ) (T : Tree) (hT : WF n T lo hi) (l : List (Nat → ℝ)) (s : NN)
    (h : Good n q l s) (hov : isOverlap tol n lo hi q s.dmin = false) : Good n q (l ++ points T) s := by
  rcases h with ⟨h1, rfl⟩ | ⟨u, h1, h2, h3, h4⟩
  · rw [h1] at hov; simp [isOverlap] at hov
  · rw [h3] at hov
    simp only [isOverlap, decide_eq_false_iff_not, not_le] at hov
    refine Or.inr ⟨u, by simp [h1], h2, h3, fun y hy => ?_⟩
    rcases List.mem_append.mp hy with hy | hy
    · exact h4 y hy
    · have hb := boxDist_le n lo hi q y (WF_points n T lo hi hT y hy)
      rw [← euclid_sq] at hb
      have := euclid_nonneg n y q
      have := euclid_nonneg n u q
      nlinarith

theorem reach_good (tol : ℝ) (htol : 0 ≤ tol) (n : Nat) (q : Nat → ℝ) (C : Tree) (lo hi : Nat → Option ℝ) (hC : WF n C lo hi)
    (ih : ∀ l s, Good n q l s → Good n q (l ++ points C) (nnOpp tol n q C s)) (l : List (Nat → ℝ)) (s : NN) (h : Good n q l s) :
    Good n q (l ++ points C) (if reach tol n C q s then nnOpp tol n q C s else s) := by
  cases C with
  | nil => simpa [points, reach] using h
  | node a b lo1 hi1 c d =>
    split
    · exact ih l s h
    · rename_i hov
      have e := hC
      obtain ⟨rfl, rfl, _⟩ := e
      exact prune_good tol htol n q _ _ _ hC l s h (by simpa [reach] using hov)

theorem nnOpp_good (tol : ℝ) (htol : 0 ≤ tol) (n : Nat) (q : Nat → ℝ) (T : Tree) (lo hi : Nat → Option ℝ) (hT : WF n T lo hi) (l : List (Nat → ℝ)) (s : NN)
    (h : Good n q l s) : Good n q (l ++ points T) (nnOpp tol n q T s) := by
  induction T generalizing lo hi l s with
  | nil => unfold nnOpp; simpa [points] using h
  | node sp v lo' hi' s0 s1 ih0 ih1 =>
    obtain ⟨rfl, rfl, g1, g2, g3, g4⟩ := hT
    rw [nnOpp]
    have k1 := nnTest_good n v q l s h
    generalize nnTest n v q s = t1 at k1
    have step : ∀ (C : Tree) (lo hi : Nat → Option ℝ) (_ : WF n C lo hi)
        (_ : ∀ l s, Good n q l s → Good n q (l ++ points C) (nnOpp tol n q C s)) (l : List (Nat → ℝ)) (s : NN), Good n q l s →
        Good n q (l ++ points C) (if reach tol n C q s then nnOpp tol n q C s else s) :=
      fun C lo hi hC ih l s h => reach_good tol htol n q C lo hi hC ih l s h
    have k2 := step s0 _ _ g3 (fun l s h => ih0 _ _ g3 l s h) _ t1 k1
    have k3 := step s1 _ _ g4 (fun l s h => ih1 _ _ g4 l s h) _ _ k2
    refine k3.congr fun x => ?_
    simp only [points, List.mem_append, List.mem_cons]
    tauto

theorem nnSearch_good (tol : ℝ) (htol : 0 ≤ tol) (n : Nat) (q : Nat → ℝ) (T : Tree) (lo hi : Nat → Option ℝ) (hT : WF n T lo hi) (l : List (Nat → ℝ)) (s : NN)
    (h : Good n q l s) : Good n q (l ++ points T) (nnSearch tol n q T s) := by
  induction T generalizing lo hi l s with
  | nil => unfold nnSearch; simpa [points] using h
  | node sp v lo' hi' s0 s1 ih0 ih1 =>
    obtain ⟨rfl, rfl, g1, g2, g3, g4⟩ := hT
    rw [nnSearch]
    have step : ∀ (C : Tree) (lo hi : Nat → Option ℝ) (_ : WF n C lo hi) (l : List (Nat → ℝ)) (s : NN), Good n q l s →
        Good n q (l ++ points C) (if reach tol n C q s then nnOpp tol n q C s else s) :=
      fun C lo hi hC l s h => reach_good tol htol n q C lo hi hC (fun l s h => nnOpp_good tol htol n q C lo hi hC l s h) l s h
    split
    · have k1 := nnTest_good n v q _ _ (ih0 _ _ g3 l s h)
      have k2 := step s1 _ _ g4 _ _ k1
      refine k2.congr fun x => ?_
      simp only [points, List.mem_append, List.mem_cons]
      tauto
    · have k1 := nnTest_good n v q _ _ (ih1 _ _ g4 l s h)
      have k2 := step s0 _ _ g3 _ _ k1
      refine k2.congr fun x => ?_
      simp only [points, List.mem_append, List.mem_cons]
      tauto

/-- The tree after a history of insertions into an initialised tree. -/
noncomputable def build (n : Nat) (hist : List (Nat → ℝ)) : Tree := hist.foldl (zVecTreeAdd n) .nil

theorem build_spec (n : Nat) (hn : 0 < n) (hist : List (Nat → ℝ)) :
    WF n (build n hist) (fun _ => none) (fun _ => none) ∧ (points (build n hist)).Perm hist := by
  have : ∀ (l : List (Nat → ℝ)) (T : Tree), WF n T (fun _ => none) (fun _ => none) →
      WF n (l.foldl (zVecTreeAdd n) T) (fun _ => none) (fun _ => none) ∧ (points (l.foldl (zVecTreeAdd n) T)).Perm (l ++ points T) := by
    intro l
    induction l with
    | nil => intro T h; exact ⟨h, List.Perm.refl _⟩
    | cons x l ih =>
      intro T h
      obtain ⟨a, b⟩ := ih _ (WF_zVecTreeAdd n hn x T h)
      refine ⟨a, b.trans ?_⟩
      refine (List.Perm.append_left l (points_zVecTreeAdd n x T)).trans ?_
      exact List.perm_middle
  have h := this hist .nil trivial
  simpa [points, build] using h

/-- **C40.** After every non-empty history of insertions of vectors of dimension `n > 0`, the search returns one of the inserted
vectors together with its distance to the query, and no inserted vector is nearer. -/
theorem zVecTreeNN_correct (tol : ℝ) (htol : 0 ≤ tol) (n : Nat) (hn : 0 < n) (hist : List (Nat → ℝ)) (hne : hist ≠ []) (q : Nat → ℝ) :
    ∃ u ∈ hist, zVecTreeNN tol n (build n hist) q = .ok ⟨some u, some (euclid n u q)⟩ ∧ ∀ y ∈ hist, euclid n u q ≤ euclid n y q := by
  obtain ⟨h1, h2⟩ := build_spec n hn hist
  have hg := nnSearch_good tol htol n q (build n hist) _ _ h1 [] ⟨none, none⟩ (Or.inl ⟨rfl, rfl⟩)
  rw [List.nil_append] at hg
  have hTn : build n hist ≠ .nil := by
    intro e
    rw [e] at h2
    exact hne (h2.symm.eq_nil)
  unfold zVecTreeNN
  cases hT : build n hist with
  | nil => exact absurd hT hTn
  | node a b c d e f =>
    simp only
    rw [← hT]
    rcases hg with ⟨_, g⟩ | ⟨u, g1, g2, g3, g4⟩
    · rw [g] at h2
      exact absurd (h2.symm.eq_nil) hne
    · refine ⟨u, h2.mem_iff.mp g1, ?_, fun y hy => g4 y (h2.mem_iff.mpr hy)⟩
      generalize nnSearch tol n q (build n hist) ⟨none, none⟩ = r at g2 g3
      cases r
      simp only at g2 g3
      rw [g2, g3]

/-- **C40.** The tree stores exactly the inserted vectors, with multiplicity. -/
theorem zVecTree_stores (n : Nat) (hn : 0 < n) (hist : List (Nat → ℝ)) : (points (build n hist)).Perm hist := (build_spec n hn hist).2

/-- **C40.** A search in a tree without vectors reads the component with index -1 of a null vector. -/
theorem zVecTreeNN_empty_ub (tol : ℝ) (n : Nat) (q : Nat → ℝ) : zVecTreeNN tol n (build n []) q = .ub := rfl

example : ([fun _ => 1, fun i => (i:ℝ), fun _ => 5] : List (Nat → ℝ)) ≠ [] := by simp

/-! ## C41: nearest neighbour in a list -/

section
variable {K : Type*} [Field K] [LinearOrder K] [IsStrictOrderedRing K]

theorem listNN_spec (n : Nat) (q : Nat → K) (l pre : List (Nat → K)) (s : Option ((Nat → K) × K))
    (h : (s = none ∧ pre = []) ∨ ∃ (i : Nat) (u : Nat → K), pre[i]? = some u ∧ s = some (u, zVecSqrDist n u q) ∧
      (∀ y ∈ pre, zVecSqrDist n u q ≤ zVecSqrDist n y q) ∧ ∀ (j : Nat) y, j < i → pre[j]? = some y → zVecSqrDist n u q < zVecSqrDist n y q) :
    (listNN n q l s = none ∧ pre ++ l = []) ∨ ∃ (i : Nat) (u : Nat → K), (pre ++ l)[i]? = some u ∧ listNN n q l s = some (u, zVecSqrDist n u q) ∧
      (∀ y ∈ pre ++ l, zVecSqrDist n u q ≤ zVecSqrDist n y q) ∧ ∀ (j : Nat) y, j < i → (pre ++ l)[j]? = some y → zVecSqrDist n u q < zVecSqrDist n y q := by
  induction l generalizing pre s with
  | nil => unfold listNN; simpa using h
  | cons v l ih =>
    rw [show pre ++ v :: l = (pre ++ [v]) ++ l by simp]
    unfold listNN
    rcases h with ⟨rfl, rfl⟩ | ⟨i, u, h1, rfl, h3, h4⟩
    · simp only
      refine ih ([] ++ [v]) _ (Or.inr ⟨0, v, by simp, rfl, by simp, fun j y hj => by omega⟩)
    · simp only
      have hi : i < pre.length := by
        by_contra hc
        rw [List.getElem?_eq_none (by omega)] at h1
        simp at h1
      split
      · rename_i hlt
        refine ih (pre ++ [v]) _ (Or.inr ⟨pre.length, v, by simp, rfl, fun y hy => ?_, fun j y hj hy => ?_⟩)
        · rcases List.mem_append.mp hy with hy | hy
          · exact hlt.le.trans (h3 y hy)
          · rw [List.mem_singleton.mp hy]
        · rw [List.getElem?_append_left hj] at hy
          exact lt_of_lt_of_le hlt (h3 y (List.mem_of_getElem? hy))
      · rename_i hlt
        refine ih (pre ++ [v]) _ (Or.inr ⟨i, u, ?_, rfl, fun y hy => ?_, fun j y hj hy => ?_⟩)
        · rw [List.getElem?_append_left hi]; exact h1
        · rcases List.mem_append.mp hy with hy | hy
          · exact h3 y hy
          · rw [List.mem_singleton.mp hy]; exact not_lt.mp hlt
        · rw [List.getElem?_append_left (by omega)] at hy
          exact h4 j y hj hy

end

/-- **C41.** `zVecListNN` returns the first of the nearest vectors of a non-empty list with its distance. -/
theorem zVecListNN_correct (n : Nat) (l : List (Nat → ℝ)) (hl : l ≠ []) (q : Nat → ℝ) :
    ∃ (i : Nat) (u : Nat → ℝ), l[i]? = some u ∧ zVecListNN n l q = some (u, euclid n u q) ∧ (∀ y ∈ l, euclid n u q ≤ euclid n y q) ∧
      ∀ (j : Nat) y, j < i → l[j]? = some y → euclid n u q < euclid n y q := by
  rcases listNN_spec n q l [] none (Or.inl ⟨rfl, rfl⟩) with ⟨_, h⟩ | ⟨i, u, h1, h2, h3, h4⟩
  · exact absurd h hl
  · rw [List.nil_append] at h1 h3 h4
    refine ⟨i, u, h1, ?_, fun y hy => ?_, fun j y hj hy => ?_⟩
    · unfold zVecListNN
      rw [h2]
      simp only [Option.map_some]
      rw [← zVecDist_spec]; rfl
    · have := h3 y hy
      rw [zVecSqrDist_spec, zVecSqrDist_spec] at this
      exact Real.sqrt_le_sqrt this
    · have := h4 j y hj hy
      rw [zVecSqrDist_spec, zVecSqrDist_spec] at this
      exact Real.sqrt_lt_sqrt (sq_sum_nonneg n fun i => u i - q i) this

/-- **C41.** An empty list gives the null vector with an infinite distance. -/
theorem zVecListNN_empty (n : Nat) (q : Nat → ℝ) : zVecListNN n [] q = none := rfl

/-! ## C42: polyline simplification -/

section RDP
variable {V K : Type*} [Zero K] [LinearOrder K]

/-- `out` results from `inp` by dropping runs of vectors, each dropped one within `tol` of the edge between the two neighbours of its
run that are kept; the first and the last vector are kept. -/
inductive Simplifies (metric : V → V → V → K) (tol : K) : List V → List V → Prop
  | last (a : V) : Simplifies metric tol [a] [a]
  | run (a b : V) (mids inp out : List V) (h : ∀ x ∈ mids, metric x a b ≤ tol) (hs : Simplifies metric tol (b :: inp) (b :: out)) :
      Simplifies metric tol (a :: mids ++ b :: inp) (a :: b :: out)

theorem Simplifies.length_le {metric : V → V → V → K} {tol : K} {l o : List V} (h : Simplifies metric tol l o) : o.length ≤ l.length := by
  induction h with
  | last a => simp
  | run a b mids inp out h hs ih => simp at ih ⊢; omega

theorem Simplifies.append (metric : V → V → V → K) (tol : K) (a b : V) (l1 o1 l2 o2 : List V)
    (h1 : Simplifies metric tol (a :: l1 ++ [b]) (a :: o1 ++ [b])) (h2 : Simplifies metric tol (b :: l2) (b :: o2)) :
    Simplifies metric tol (a :: l1 ++ b :: l2) (a :: o1 ++ b :: o2) := by
  generalize hi : a :: l1 ++ [b] = i at h1
  generalize ho : a :: o1 ++ [b] = o at h1
  induction h1 generalizing a l1 o1 with
  | last c => exact absurd (congrArg List.length hi) (by simp)
  | run c d mids inp out h hs ih =>
    rw [List.cons_append] at ho
    injection ho with e1 e2
    rw [List.cons_append, List.cons_append] at hi
    injection hi with _ e3
    subst e1
    cases o1 with
    | nil =>
      rw [List.nil_append] at e2
      injection e2 with e4 e5
      subst e4 e5
      cases hs with
      | last =>
        have : l1 = mids := by simpa using e3
        subst this
        exact .run a b l1 l2 o2 h h2
    | cons o o1 =>
      rw [List.cons_append] at e2
      injection e2 with e4 e5
      subst e4
      have hinp : inp ≠ [] := by
        rintro rfl
        subst e5
        have := hs.length_le
        simp at this
      obtain ⟨inp', b', rfl⟩ : ∃ inp' b', inp = inp' ++ [b'] := ⟨inp.dropLast, inp.getLast hinp, (List.dropLast_append_getLast hinp).symm⟩
      have e6 : l1 ++ [b] = (mids ++ o :: inp') ++ [b'] := by simpa using e3
      obtain ⟨e7, e8⟩ := List.append_inj' e6 rfl
      have e8 : b = b' := by simpa using e8
      subst e7 e8
      have := ih o inp' o1 (by simp) (by simp [e5])
      have g := Simplifies.run (metric := metric) (tol := tol) a o mids (inp' ++ b :: l2) (o1 ++ b :: o2) h (by simpa using this)
      simpa using g

theorem rdpScan_spec (metric : V → V → V → K) (a b : V) (l pre : List V) (s : K × Option Nat)
    (h1 : ∀ x ∈ pre, metric x a b ≤ s.1) (h2 : 0 ≤ s.1) (h3 : (s.2 = none ∧ s.1 = 0) ∨ ∃ i x, s.2 = some i ∧ pre[i]? = some x) :
    let r := rdpScan metric a b l pre.length s
    (∀ x ∈ pre ++ l, metric x a b ≤ r.1) ∧ 0 ≤ r.1 ∧ ((r.2 = none ∧ r.1 = 0) ∨ ∃ i x, r.2 = some i ∧ (pre ++ l)[i]? = some x) := by
  induction l generalizing pre s with
  | nil => unfold rdpScan; rw [List.append_nil]; exact ⟨h1, h2, h3⟩
  | cons y l ih =>
    unfold rdpScan
    rw [show pre ++ y :: l = (pre ++ [y]) ++ l by simp]
    simp only
    have hl : (pre ++ [y]).length = pre.length + 1 := by simp
    rw [← hl]
    split
    · rename_i hgt
      refine ih (pre ++ [y]) _ (fun x hx => ?_) (h2.trans hgt.le) (Or.inr ⟨pre.length, y, rfl, by simp⟩)
      rcases List.mem_append.mp hx with hx | hx
      · exact (h1 x hx).trans hgt.le
      · rw [List.mem_singleton.mp hx]
    · rename_i hgt
      refine ih (pre ++ [y]) _ (fun x hx => ?_) h2 ?_
      · rcases List.mem_append.mp hx with hx | hx
        · exact h1 x hx
        · rw [List.mem_singleton.mp hx]; exact not_lt.mp hgt
      · rcases h3 with h3 | ⟨i, x, e1, e2⟩
        · exact Or.inl h3
        · have hi : i < pre.length := by
            by_contra hc
            rw [List.getElem?_eq_none (by omega)] at e2
            simp at e2
          exact Or.inr ⟨i, x, e1, by rw [List.getElem?_append_left hi]; exact e2⟩

theorem rdp_spec (metric : V → V → V → K) (tol : K) (htol : 0 ≤ tol) (fuel : Nat) (a b : V) (l : List V) (hf : l.length < fuel) :
    ∃ o, rdp metric tol fuel a l b = .ok o ∧ Simplifies metric tol (a :: l ++ [b]) (a :: o ++ [b]) ∧ o.Sublist l := by
  induction fuel generalizing a b l with
  | zero => omega
  | succ fuel ih =>
    unfold rdp
    obtain ⟨h1, h2, h3⟩ := rdpScan_spec metric a b l [] (0, none) (by simp) (le_refl _) (Or.inl ⟨rfl, rfl⟩)
    simp only [List.length_nil, List.nil_append] at h1 h2 h3
    generalize rdpScan metric a b l 0 (0, none) = r at h1 h2 h3
    simp only
    split
    · rename_i hgt
      rcases h3 with ⟨_, h⟩ | ⟨i, c, e1, e2⟩
      · rw [h] at hgt; exact absurd hgt (not_lt.mpr htol)
      · rw [e1]
        simp only
        rw [e2]
        simp only
        have hi : i < l.length := by
          by_contra hc
          rw [List.getElem?_eq_none (by omega)] at e2
          simp at e2
        obtain ⟨o1, g1, g2, g3⟩ := ih a c (l.take i) (by rw [List.length_take]; omega)
        obtain ⟨o2, k1, k2, k3⟩ := ih c b (l.drop (i+1)) (by rw [List.length_drop]; omega)
        rw [g1, k1]
        have hsplit : l = l.take i ++ c :: l.drop (i+1) := by
          conv_lhs => rw [← List.take_append_drop i l]
          congr 1
          rw [List.getElem?_eq_getElem hi] at e2
          injection e2 with e2
          rw [← e2, List.drop_eq_getElem_cons hi]
        refine ⟨_, rfl, ?_, ?_⟩
        · have := Simplifies.append metric tol a c (l.take i) o1 (l.drop (i+1) ++ [b]) (o2 ++ [b]) g2 (by simpa using k2)
          have e3 : a :: l ++ [b] = a :: l.take i ++ c :: (l.drop (i+1) ++ [b]) := by
            conv_lhs => rw [hsplit]
            simp
          rw [e3]
          simpa using this
        · rw [hsplit]
          have := g3.append (k3.cons₂ c)
          simpa using this
    · rename_i hgt
      refine ⟨[], rfl, ?_, List.nil_sublist _⟩
      exact .run a b l [] [] (fun x hx => (h1 x hx).trans (not_lt.mp hgt)) (.last b)

/-- **C42.** For every metric, every non-negative tolerance and every polyline of at least two points the result is a subsequence of
the input with the same ends, and every dropped point is within the tolerance of the edge between its kept neighbours. -/
theorem zVecListRDP_correct (metric : V → V → V → K) (tol : K) (htol : 0 ≤ tol) (l : List V) (hl : 2 ≤ l.length) :
    ∃ o, zVecListRDP metric tol l = .ok o ∧ Simplifies metric tol l o ∧ o.Sublist l ∧ o.head? = l.head? ∧ o.getLast? = l.getLast? := by
  match l, hl with
  | a :: x :: r, _ =>
    have hx : x :: r = (x :: r).dropLast ++ [(x :: r).getLast (by simp)] := (List.dropLast_append_getLast (by simp)).symm
    unfold zVecListRDP
    simp only
    obtain ⟨o, h1, h2, h3⟩ := rdp_spec metric tol htol (r.length + 1) a ((x :: r).getLast (by simp)) (x :: r).dropLast (by simp)
    rw [h1]
    refine ⟨_, rfl, ?_, ?_, by simp, ?_⟩
    · have e : a :: x :: r = a :: (x :: r).dropLast ++ [(x :: r).getLast (by simp)] := by
        rw [List.cons_append, ← hx]
      rw [e]
      simpa using h2
    · have e : a :: x :: r = a :: ((x :: r).dropLast ++ [(x :: r).getLast (by simp)]) := by
        rw [← hx]
      conv_rhs => rw [e]
      rw [List.cons_append]
      exact (h3.append (List.Sublist.refl _)).cons₂ a
    · rw [List.getLast?_eq_getLast (by simp), List.getLast?_eq_getLast (by simp)]
      simp

/-- **C42.** A list of one vector makes the loop run into the root cell, which holds no vector. -/
theorem zVecListRDP_single_ub (metric : V → V → V → K) (tol : K) (a : V) : zVecListRDP metric tol [a] = .ub := rfl

/-- **C42.** A negative tolerance ends in a recursion on a null pointer for two points. -/
theorem zVecListRDP_negative_ub (metric : V → V → V → K) (tol : K) (h : tol < 0) (a b : V) : zVecListRDP metric tol [a, b] = .ub := by
  simp [zVecListRDP, rdp, rdpScan, Res.bind, h]

end RDP

example : zVecListRDP (fun x a b => if x = 5 then 3 else (x - a) * (b - x)) (1:ℤ) [0, 0, 5, 6] = .ok [0, 5, 6] := by decide

/-! ## C43: sequence -/

section Seq
variable {V K : Type*}

/-- Operations on a sequence. -/
inductive SeqOp (V K : Type*) where
  | enq (v : Option V) (dt : K)
  | deq

/-- Run operations from `s`: the final sequence and everything dequeued. -/
def seqRun : List (V × K) → List (SeqOp V K) → List (V × K) × List (V × K)
  | s, [] => (s, [])
  | s, .enq v dt :: ops => seqRun (zSeqEnqueue s v dt).1 ops
  | s, .deq :: ops =>
    let r := zSeqDequeue s
    let t := seqRun r.1 ops
    (t.1, r.2.toList ++ t.2)

/-- The pairs with a non-null vector that were enqueued. -/
def enqueued : List (SeqOp V K) → List (V × K)
  | [] => []
  | .enq (some v) dt :: ops => (v, dt) :: enqueued ops
  | .enq none _ :: ops => enqueued ops
  | .deq :: ops => enqueued ops

/-- **C43.** For every history: what was dequeued, followed by what is still in the sequence, is what was enqueued, in order. -/
theorem zSeq_fifo (s : List (V × K)) (ops : List (SeqOp V K)) : (seqRun s ops).2 ++ (seqRun s ops).1 = s ++ enqueued ops := by
  induction ops generalizing s with
  | nil => simp [seqRun, enqueued]
  | cons o ops ih =>
    cases o with
    | enq v dt =>
      cases v with
      | none => simp only [seqRun, zSeqEnqueue, enqueued]; exact ih s
      | some v => simp only [seqRun, zSeqEnqueue, enqueued]; rw [ih]; simp
    | deq =>
      cases s with
      | nil => simp only [seqRun, zSeqDequeue, enqueued, Option.toList, List.nil_append]; simpa using ih []
      | cons c s => simp only [seqRun, zSeqDequeue, enqueued, Option.toList, List.cons_append, List.nil_append]; rw [ih]

/-- **C43.** A dequeue fails exactly on an empty sequence. -/
theorem zSeqDequeue_none (s : List (V × K)) : (zSeqDequeue s).2 = none ↔ s = [] := by
  cases s <;> simp [zSeqDequeue]

/-- **C43.** `zSeqJump` returns the cell at that step, the oldest one for a negative step and the newest one beyond the end. -/
theorem zSeqJump_spec (s : List (V × K)) (step : Int) :
    zSeqJump s step = if h : step.toNat < s.length then some s[step.toNat] else s.getLast? := by
  have : ∀ (l : List (V × K)) (last : Option (V × K)) (step : Int),
      jumpLoop last l step = if h : step.toNat < l.length then some l[step.toNat] else last := by
    intro l last
    induction l with
    | nil => intro step; simp [jumpLoop]
    | cons c l ih =>
      intro step
      unfold jumpLoop
      split
      · rename_i h
        have : step.toNat = 0 := by omega
        simp [this]
      · rename_i h
        rw [ih]
        have e : step.toNat = (step - 1).toNat + 1 := by omega
        generalize (step - 1).toNat = k at e
        simp [e]
  exact this s s.getLast? step

example : zSeqJump [("a", 1), ("b", 2), ("c", 3)] 1 = some ("b", 2) ∧ zSeqJump [("a", 1), ("b", 2), ("c", 3)] 7 = some ("c", 3) := by decide

end Seq

/-! ## C74: ring -/

section Ring
variable {K : Type*} [Field K]

/-- **C74.** `zVecRingLinearSum` computes the linear combination of the ring elements counted from the head; the result vector is
independent of its previous content. -/
theorem zVecRingLinearSum_spec (n : Nat) (v : Nat → K) (cn : Nat) (c : Nat → K) (r : Ring K) :
    (zVecRingLinearSum n n v cn c r).2 = true ∧ ∀ j, j < n → (zVecRingLinearSum n n v cn c r).1 j = ∑ i ∈ range cn, c i * r.elem i j := by
  unfold zVecRingLinearSum zVecRingCat
  rw [if_neg (by simp)]
  refine ⟨rfl, ?_⟩
  simp only
  rw [forUp_set1 (lo := 0) (hi := n) _ v (fun _ => (0:K)) (fun _ _ _ _ _ _ => rfl)]
  refine forUp_inv (lo := 0) (hi := cn) _ _ (P := fun m (w : Nat → K) => ∀ j, j < n → w j = ∑ i ∈ range m, c i * r.elem i j) (by omega) ?_ ?_
  · intro j hj; rw [if_pos (by omega), sum_range_zero]
  · intro i w _ _ ih j hj
    rw [forUp_set1 (lo := 0) (hi := n) _ w (fun j => w j + c i * r.elem i j) (fun j u h1 h2 h3 h4 => by rw [h4 j (by omega)])]
    simp only
    rw [if_pos (by omega), ih j hj, sum_range_succ]

/-- **C74.** `zVecRingCat` adds the combination to the vector. -/
theorem zVecRingCat_spec (n : Nat) (v : Nat → K) (cn : Nat) (c : Nat → K) (r : Ring K) :
    (zVecRingCat n n v cn c r).2 = true ∧ ∀ j, j < n → (zVecRingCat n n v cn c r).1 j = v j + ∑ i ∈ range cn, c i * r.elem i j := by
  unfold zVecRingCat
  rw [if_neg (by simp)]
  refine ⟨rfl, ?_⟩
  simp only
  refine forUp_inv (lo := 0) (hi := cn) _ _ (P := fun m (w : Nat → K) => ∀ j, j < n → w j = v j + ∑ i ∈ range m, c i * r.elem i j) (by omega) ?_ ?_
  · intro j hj; simp
  · intro i w _ _ ih j hj
    rw [forUp_set1 (lo := 0) (hi := n) _ w (fun j => w j + c i * r.elem i j) (fun j u h1 h2 h3 h4 => by rw [h4 j (by omega)])]
    simp only
    rw [if_pos (by omega), ih j hj, sum_range_succ, add_assoc]

/-- **C74.** A size mismatch is reported; `zVecRingCat` leaves the vector unchanged. -/
theorem zVecRingCat_mismatch (n m : Nat) (h : n ≠ m) (v : Nat → K) (cn : Nat) (c : Nat → K) (r : Ring K) : zVecRingCat n m v cn c r = (v, false) := by
  unfold zVecRingCat; rw [if_pos h]

/-- **C74.** Filling sets every element of the ring, wherever its head is. -/
theorem zVecRingFill_spec (n : Nat) (r : Ring K) (hr : 0 < r.size) (v : Nat → K) :
    (zVecRingFill n r n v).2 = true ∧ ∀ i j, j < n → (zVecRingFill n r n v).1.elem i j = v j := by
  unfold zVecRingFill
  rw [if_neg (by simp)]
  refine ⟨rfl, ?_⟩
  simp only
  have inv := forUp_inv (lo := 0) (hi := r.size) (fun i b => set1 b ((r.head + i) % r.size) (forUp 0 n (fun j w => set1 w j (v j)) (b ((r.head + i) % r.size)))) r.buf
    (P := fun m (b : Nat → Nat → K) => ∀ i, i < m → ∀ j, j < n → b ((r.head + i) % r.size) j = v j) (by omega) (by omega) (by
      intro m b _ _ ih i hi j hj
      by_cases e : (r.head + i) % r.size = (r.head + m) % r.size
      · rw [e, set1_same, forUp_set1 (lo := 0) (hi := n) _ _ v (fun _ _ _ _ _ _ => rfl)]
        simp only
        rw [if_pos (by omega)]
      · rw [set1_ne _ _ e]
        by_cases him : i = m
        · subst him; exact absurd rfl e
        · exact ih i (by omega) j hj)
  intro i j hj
  unfold Ring.elem
  simp only
  have := inv (i % r.size) (Nat.mod_lt _ hr) j hj
  rwa [Nat.add_mod_mod] at this

example : (zVecRingLinearSum 1 1 (fun _ => 9) 3 (fun i => [2, 3, 5].getD i 0) { size := 3, head := 2, buf := fun i _ => [10, 100, 1000].getD i 0 } : (Nat → ℚ) × Bool).1 0 = 2530 := by
  norm_num [zVecRingLinearSum, zVecRingCat, Ring.elem, forUp, forN, set1]

end Ring
end Zm.Cont
