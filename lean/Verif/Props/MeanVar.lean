import Verif.Model.MeanVar
import Verif.Props.Stat
import Verif.Props.LQ
import Mathlib.Tactic.Linarith
import Mathlib.Tactic.FieldSimp
import Mathlib.Tactic.Ring

/-! # Properties of mean with variance and covariance (C244) -/

set_option linter.unusedSectionVars false

namespace Zm.Stat
open Zm Finset

variable {K : Type*} [Field K] [LinearOrder K] [IsStrictOrderedRing K]

/-- specification: the mean of component `j` -/
def meanOf (l : List (Nat → K)) (j : Nat) : K := (l.map fun v => v j).sum / l.length

/-- specification: the mean squared distance of the vectors of `l` from `c` -/
def spread (n : Nat) (l : List (Nat → K)) (c : Nat → K) : K := (l.map fun v => ∑ i ∈ range n, (v i - c i)^2).sum / l.length

theorem spread_expand (n : Nat) (l : List (Nat → K)) (c : Nat → K) :
    (l.map fun v => ∑ i ∈ range n, (v i - c i)^2).sum =
      (l.map fun v => ∑ i ∈ range n, (v i)^2).sum - 2 * ∑ i ∈ range n, c i * (l.map fun v => v i).sum + l.length * ∑ i ∈ range n, (c i)^2 := by
  induction l with
  | nil => simp
  | cons v l ih =>
    have e : ∑ i ∈ range n, (v i - c i)^2 = ∑ i ∈ range n, (v i)^2 - 2 * ∑ i ∈ range n, c i * v i + ∑ i ∈ range n, (c i)^2 := by
      rw [mul_sum, ← sum_sub_distrib, ← sum_add_distrib]
      exact sum_congr rfl fun i _ => by ring
    simp only [List.map_cons, List.sum_cons, List.length_cons, Nat.cast_add, Nat.cast_one, mul_add, sum_add_distrib]
    rw [ih, e]; ring

/-- the spread about any point is the spread about the mean plus the squared distance of the point from the mean -/
theorem spread_steiner (n : Nat) (l : List (Nat → K)) (hl : l ≠ []) (c : Nat → K) :
    spread n l c = spread n l (meanOf l) + ∑ i ∈ range n, (c i - meanOf l i)^2 := by
  have h0 : (l.length : K) ≠ 0 := by exact_mod_cast (List.length_pos_iff.mpr hl).ne'
  have hs : ∀ i, (l.map fun v => v i).sum = l.length * meanOf l i := fun i => by unfold meanOf; field_simp
  unfold spread
  rw [spread_expand n l c, spread_expand n l (meanOf l)]
  simp only [hs]
  have e1 : ∑ i ∈ range n, c i * (l.length * meanOf l i) = l.length * ∑ i ∈ range n, c i * meanOf l i := by
    rw [mul_sum]; exact sum_congr rfl fun i _ => by ring
  have e2 : ∑ i ∈ range n, meanOf l i * (l.length * meanOf l i) = l.length * ∑ i ∈ range n, (meanOf l i)^2 := by
    rw [mul_sum]; exact sum_congr rfl fun i _ => by ring
  have e3 : ∑ i ∈ range n, (c i - meanOf l i)^2 = ∑ i ∈ range n, (c i)^2 - 2 * ∑ i ∈ range n, c i * meanOf l i + ∑ i ∈ range n, (meanOf l i)^2 := by
    rw [mul_sum, ← sum_sub_distrib, ← sum_add_distrib]
    exact sum_congr rfl fun i _ => by ring
  rw [e1, e2, e3]
  field_simp
  ring

/-- **C244.** `zVecListMeanVar` of a list that is not empty: the mean of each component and the mean squared distance from the mean; this is the
least mean squared distance from any vector, attained by vectors equal to the mean only. -/
theorem zVecListMeanVar_spec (tol : K) (htol : tol < 1) (n : Nat) (l : List (Nat → K)) (hl : l ≠ []) :
    ∃ m var, zVecListMeanVar tol n l = .ok (m, var) ∧ (∀ j, j < n → m j = meanOf l j) ∧ var = spread n l (meanOf l) ∧
      (∀ c, var ≤ spread n l c) ∧ ∀ c, spread n l c = var ↔ ∀ j, j < n → c j = meanOf l j := by
  obtain ⟨_, hm⟩ := zVecListMean_spec tol htol n l hl
  have hv : zVecListVar n l (zVecListMean tol n l).1 = spread n l (meanOf l) := by
    rw [zVecListVar_spec]; unfold spread
    congr 2
    refine List.map_congr_left fun v _ => sum_congr rfl fun i hi => ?_
    rw [hm i (mem_range.mp hi)]; rfl
  refine ⟨(zVecListMean tol n l).1, _, ?_, fun j hj => hm j hj, hv, fun c => ?_, fun c => ?_⟩
  · cases l with
    | nil => exact absurd rfl hl
    | cons v l => rfl
  · rw [hv, spread_steiner n l hl c]
    exact le_add_of_nonneg_right (sum_nonneg fun i _ => sq_nonneg _)
  · rw [hv, spread_steiner n l hl c, add_eq_left, sum_eq_zero_iff_of_nonneg fun i _ => sq_nonneg _]
    constructor
    · intro h j hj
      exact sub_eq_zero.mp (pow_eq_zero_iff (two_ne_zero) |>.mp (h j (mem_range.mpr hj)))
    · intro h j hj
      rw [h j (mem_range.mp hj), sub_self, zero_pow two_ne_zero]

/-- the quadratic form of a sum of dyads -/
theorem dyads_form (n : Nat) (l : List (Nat → K)) (c x : Nat → K) :
    ∑ i ∈ range n, ∑ j ∈ range n, x i * (l.map fun v => (v i - c i) * (v j - c j)).sum * x j =
      (l.map fun v => (∑ i ∈ range n, x i * (v i - c i))^2).sum := by
  induction l with
  | nil => simp
  | cons v l ih =>
    simp only [List.map_cons, List.sum_cons, mul_add, add_mul, sum_add_distrib]
    rw [ih, sq, sum_mul_sum]
    congr 1
    exact sum_congr rfl fun i _ => sum_congr rfl fun j _ => by ring

/-- **C244.** `zVecListMeanCov` of a list that is not empty: the mean, and a symmetric matrix whose value on a direction `x` is the mean squared
component along `x` of the deviations from the mean; so it is positive semidefinite, vanishes only along directions in which all vectors agree, and
its trace is the variance. -/
theorem zVecListMeanCov_spec (tol : K) (htol : tol < 1) (n : Nat) (l : List (Nat → K)) (hl : l ≠ []) :
    ∃ m cov, zVecListMeanCov tol n l = .ok (m, cov) ∧ (∀ j, j < n → m j = meanOf l j) ∧
      (∀ i j, i < n → j < n → cov i j = cov j i) ∧
      (∀ x : Nat → K, ∑ i ∈ range n, ∑ j ∈ range n, x i * cov i j * x j =
        (l.map fun v => (∑ i ∈ range n, x i * (v i - meanOf l i))^2).sum / l.length) ∧
      (∀ x : Nat → K, 0 ≤ ∑ i ∈ range n, ∑ j ∈ range n, x i * cov i j * x j) ∧
      (∀ x : Nat → K, ∑ i ∈ range n, ∑ j ∈ range n, x i * cov i j * x j = 0 ↔
        ∀ v ∈ l, ∑ i ∈ range n, x i * v i = ∑ i ∈ range n, x i * meanOf l i) ∧
      ∑ i ∈ range n, cov i i = spread n l (meanOf l) := by
  have hpos : (0:K) < l.length := by exact_mod_cast List.length_pos_iff.mpr hl
  obtain ⟨_, hm⟩ := zVecListMean_spec tol htol n l hl
  obtain ⟨hok, hc⟩ := zVecListCov_spec tol htol n l hl (zVecListMean tol n l).1
  obtain ⟨hsym, htr⟩ := zVecListCov_symm_trace tol htol n l hl (zVecListMean tol n l).1
  have hform : ∀ x : Nat → K, ∑ i ∈ range n, ∑ j ∈ range n, x i * (zVecListCov tol n l (zVecListMean tol n l).1).1 i j * x j =
      (l.map fun v => (∑ i ∈ range n, x i * (v i - meanOf l i))^2).sum / l.length := by
    intro x
    rw [← dyads_form, sum_div]
    refine sum_congr rfl fun i hi => ?_
    rw [sum_div]
    refine sum_congr rfl fun j hj => ?_
    rw [hc i j (mem_range.mp hi) (mem_range.mp hj), hm i (mem_range.mp hi), hm j (mem_range.mp hj)]
    unfold meanOf
    ring
  have hnn : ∀ x : Nat → K, ∀ y ∈ (l.map fun v => (∑ i ∈ range n, x i * (v i - meanOf l i))^2), (0:K) ≤ y := by
    intro x y hy
    obtain ⟨v, _, rfl⟩ := List.mem_map.mp hy
    exact sq_nonneg _
  refine ⟨(zVecListMean tol n l).1, _, ?_, fun j hj => hm j hj, hsym, hform, ?_, ?_, ?_⟩
  · cases l with
    | nil => exact absurd rfl hl
    | cons v l => unfold zVecListMeanCov; simp only; rw [if_pos hok]
  · intro x
    rw [hform x]
    exact div_nonneg (List.sum_nonneg (hnn x)) hpos.le
  · intro x
    rw [hform x, div_eq_zero_iff, or_iff_left hpos.ne']
    have hz : ∀ v : Nat → K, (∑ i ∈ range n, x i * (v i - meanOf l i))^2 = 0 ↔ ∑ i ∈ range n, x i * v i = ∑ i ∈ range n, x i * meanOf l i := by
      intro v
      rw [pow_eq_zero_iff two_ne_zero, ← sub_eq_zero (a := ∑ i ∈ range n, x i * v i), ← sum_sub_distrib]
      simp only [mul_sub]
    constructor
    · intro h v hv
      refine (hz v).mp (le_antisymm ?_ (sq_nonneg _))
      rw [← h]
      exact List.single_le_sum (hnn x) _ (List.mem_map.mpr ⟨v, hv, rfl⟩)
    · intro h
      refine List.sum_eq_zero fun y hy => ?_
      obtain ⟨v, hv, rfl⟩ := List.mem_map.mp hy
      exact (hz v).mpr (h v hv)
  · rw [htr, zVecListVar_spec]; unfold spread
    congr 2
    refine List.map_congr_left fun v _ => sum_congr rfl fun i hi => ?_
    rw [hm i (mem_range.mp hi)]; rfl

/-- **C244.** On an empty list both read the vector at the head of the list, which does not exist. -/
theorem zVecListMeanVar_empty_violated (tol : K) (n : Nat) :
    zVecListMeanVar tol n ([] : List (Nat → K)) = .ub ∧ zVecListMeanCov tol n ([] : List (Nat → K)) = .ub := ⟨rfl, rfl⟩

/-- **C244.** The standard deviation: not negative, its square is the mean squared deviation from the mean, zero for constant data only; it does not
change when a constant is added, and is multiplied by the absolute value of a factor. -/
theorem zDataStandardDeviation_spec (sqrt : K → K) (hq : LE.SqrtOk sqrt) (data : Nat → K) (size : Nat) (h : 0 < size) :
    0 ≤ zDataStandardDeviation sqrt data size ∧
    (zDataStandardDeviation sqrt data size)^2 = (∑ i ∈ range size, (data i - (∑ i ∈ range size, data i) / size)^2) / size ∧
    (zDataStandardDeviation sqrt data size = 0 ↔ ∀ i j, i < size → j < size → data i = data j) ∧
    (∀ c, zDataStandardDeviation sqrt (fun i => data i + c) size = zDataStandardDeviation sqrt data size) ∧
    ∀ c, zDataStandardDeviation sqrt (fun i => c * data i) size = |c| * zDataStandardDeviation sqrt data size := by
  obtain ⟨hv, hv0⟩ := zDataVar_nonneg data size h
  obtain ⟨q0, q1⟩ := hq _ hv
  refine ⟨q0, ?_, ?_, fun c => ?_, fun c => ?_⟩
  · unfold zDataStandardDeviation
    rw [sq, q1, zDataVar_spec]
  · rw [← hv0]
    unfold zDataStandardDeviation
    constructor
    · intro e; rw [← q1, e, mul_zero]
    · intro e; rw [e] at q1 ⊢; exact mul_self_eq_zero.mp q1
  · unfold zDataStandardDeviation
    rw [(zData_shift data size h c).2]
  · unfold zDataStandardDeviation
    have e := (zData_scale data size c).2
    obtain ⟨p0, p1⟩ := hq (zDataVar (fun i => c * data i) size) (zDataVar_nonneg _ size h).1
    refine (mul_self_inj p0 (mul_nonneg (abs_nonneg _) q0)).mp ?_
    rw [p1, e, mul_mul_mul_comm, abs_mul_abs_self, q1, sq]

/-- two points on a line: mean 2, variance 1 -/
example : ∃ m var, zVecListMeanVar (1/10 : ℚ) 1 [fun _ => 1, fun _ => 3] = .ok (m, var) ∧ m 0 = 2 ∧ var = 1 := by
  obtain ⟨m, var, h, h1, h2, _⟩ := zVecListMeanVar_spec (1/10 : ℚ) (by norm_num) 1 [fun _ => 1, fun _ => 3] (by simp)
  refine ⟨m, var, h, ?_, ?_⟩
  · rw [h1 0 (by omega)]; norm_num [meanOf]
  · rw [h2]; norm_num [spread, meanOf]

example : ∃ m cov, zVecListMeanCov (1/10 : ℚ) 1 [fun _ => 1, fun _ => 3] = .ok (m, cov) ∧ cov 0 0 = 1 := by
  obtain ⟨m, cov, h, _, _, _, _, _, h1⟩ := zVecListMeanCov_spec (1/10 : ℚ) (by norm_num) 1 [fun _ => 1, fun _ => 3] (by simp)
  refine ⟨m, cov, h, ?_⟩
  rw [sum_range_one] at h1
  rw [h1]; norm_num [spread, meanOf]

end Zm.Stat
