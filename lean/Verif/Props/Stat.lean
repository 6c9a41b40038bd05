import Verif.Model.Stat
import Verif.Props.Misc
import Verif.Props.Container
import Mathlib.Algebra.BigOperators.Intervals
import Mathlib.Algebra.Order.BigOperators.Group.Finset
import Mathlib.Algebra.Order.Floor.Ring
import Mathlib.Algebra.BigOperators.Field
import Mathlib.Data.Nat.Choose.Sum
import Mathlib.Analysis.SpecialFunctions.ExpDeriv
import Mathlib.Analysis.Calculus.Deriv.Pow
import Mathlib.Tactic.Linarith
import Mathlib.Tactic.FieldSimp
import Mathlib.Tactic.Ring

/-! # Properties of statistics and data processing (C44 - C46, C85 - C88) -/

set_option linter.unusedSectionVars false

namespace Zm.Stat
open Zm Finset

section
variable {K : Type*} [Field K] [LinearOrder K] [IsStrictOrderedRing K]

/-! ## C44: extremes -/

/-- `r = (value, index)` is the first maximum of `f` on `0 .. size-1`. -/
def FirstMax (f : Nat → K) (size : Nat) (r : K × Nat) : Prop :=
  r.2 < size ∧ r.1 = f r.2 ∧ (∀ j, j < size → f j ≤ r.1) ∧ ∀ j, j < r.2 → f j < r.1

theorem firstMax_loop (f : Nat → K) (size : Nat) (h : 0 < size) :
    FirstMax f size (forUp 1 size (fun i (s : K × Nat) => if f i > s.1 then (f i, i) else s) (f 0, 0)) := by
  refine forUp_inv (lo := 1) (hi := size) _ (f 0, 0) (P := fun m (r : K × Nat) => FirstMax f m r) (by omega) ?_ ?_
  · refine ⟨by simp, rfl, fun j hj => ?_, fun j hj => by simp at hj⟩
    have : j = 0 := by omega
    subst this; exact le_refl _
  · intro i r h1 h2 ⟨a, b, c, d⟩
    split
    · rename_i hgt
      refine ⟨by simp, rfl, fun j hj => ?_, fun j hj => lt_of_le_of_lt (c j hj) hgt⟩
      by_cases e : j = i
      · subst e; exact le_refl _
      · exact (c j (by omega)).trans hgt.le
    · rename_i hgt
      refine ⟨by omega, b, fun j hj => ?_, d⟩
      by_cases e : j = i
      · subst e; exact not_lt.mp hgt
      · exact c j (by omega)

/-- **C44.** -/
theorem zDataMax_spec (data : Nat → K) (size : Nat) (h : 0 < size) : FirstMax data size (zDataMax data size) := firstMax_loop data size h

/-- **C44.** -/
theorem zDataAbsMax_spec (data : Nat → K) (size : Nat) (h : 0 < size) : FirstMax (fun i => |data i|) size (zDataAbsMax data size) :=
  firstMax_loop (fun i => |data i|) size h

theorem firstMin_loop (f : Nat → K) (size : Nat) (h : 0 < size) :
    FirstMax (fun i => - f i) size (-(forUp 1 size (fun i (s : K × Nat) => if f i < s.1 then (f i, i) else s) (f 0, 0)).1,
      (forUp 1 size (fun i (s : K × Nat) => if f i < s.1 then (f i, i) else s) (f 0, 0)).2) := by
  have e : forUp 1 size (fun i (s : K × Nat) => if (fun i => - f i) i > s.1 then ((fun i => - f i) i, i) else s) ((fun i => - f i) 0, 0) =
      (-(forUp 1 size (fun i (s : K × Nat) => if f i < s.1 then (f i, i) else s) (f 0, 0)).1,
      (forUp 1 size (fun i (s : K × Nat) => if f i < s.1 then (f i, i) else s) (f 0, 0)).2) := by
    clear h
    induction size with
    | zero => rw [forUp_of_le (by omega), forUp_of_le (by omega)]
    | succ n ih =>
      by_cases hn : n = 0
      · subst hn; rw [forUp_of_le (by omega), forUp_of_le (by omega)]
      · rw [forUp_succ (by omega), forUp_succ (by omega), ih]
        generalize forUp 1 n (fun i (s : K × Nat) => if f i < s.1 then (f i, i) else s) (f 0, 0) = r
        by_cases hlt : f n < r.1
        · rw [if_pos hlt, if_pos (by simpa using hlt)]
        · rw [if_neg hlt, if_neg (by simpa using hlt)]
  rw [← e]
  exact firstMax_loop (fun i => - f i) size h

/-- **C44.** The minimum is the value at its index, a lower bound, and not attained before. -/
theorem zDataMin_spec (data : Nat → K) (size : Nat) (h : 0 < size) :
    (zDataMin data size).2 < size ∧ (zDataMin data size).1 = data (zDataMin data size).2 ∧ (∀ j, j < size → (zDataMin data size).1 ≤ data j) ∧
    ∀ j, j < (zDataMin data size).2 → (zDataMin data size).1 < data j := by
  obtain ⟨a, b, c, d⟩ := firstMin_loop data size h
  exact ⟨a, neg_injective b, fun j hj => neg_le_neg_iff.mp (c j hj), fun j hj => neg_lt_neg_iff.mp (d j hj)⟩

/-- **C44.** -/
theorem zDataAbsMin_spec (data : Nat → K) (size : Nat) (h : 0 < size) :
    (zDataAbsMin data size).2 < size ∧ (zDataAbsMin data size).1 = |data (zDataAbsMin data size).2| ∧ (∀ j, j < size → (zDataAbsMin data size).1 ≤ |data j|) ∧
    ∀ j, j < (zDataAbsMin data size).2 → (zDataAbsMin data size).1 < |data j| := by
  obtain ⟨a, b, c, d⟩ := firstMin_loop (fun i => |data i|) size h
  exact ⟨a, neg_injective b, fun j hj => neg_le_neg_iff.mp (c j hj), fun j hj => neg_lt_neg_iff.mp (d j hj)⟩

/-- **C44.** Both extremes at once agree with the separate searches. -/
theorem zDataMinMax_spec (data : Nat → K) (size : Nat) (h : 0 < size) :
    zDataMinMax data size = (zDataMin data size, zDataMax data size) := by
  unfold zDataMinMax zDataMin zDataMax
  rw [forUp_left h]
  simp only [lt_irrefl, if_false, gt_iff_lt]
  refine forUp_inv (lo := 0+1) (hi := size) _ _ (P := fun m (r : (K × Nat) × (K × Nat)) =>
    r = (forUp 1 m (fun i (s : K × Nat) => if data i < s.1 then (data i, i) else s) (data 0, 0), forUp 1 m (fun i (s : K × Nat) => if s.1 < data i then (data i, i) else s) (data 0, 0))) (by omega) ?_ ?_
  · rw [forUp_of_le (by omega), forUp_of_le (by omega)]
  · intro i r h1 h2 ih
    rw [ih, forUp_succ (by omega), forUp_succ (by omega)]
    simp only
    split <;> split <;> simp_all

example : zDataMax (fun i => [3, 7, 1, 7].getD i (0:ℚ)) 4 = (7, 1) := by norm_num [zDataMax, forUp, forN]

/-! ## C45: moments -/

/-- **C45.** The sum. -/
theorem zDataSum_spec (data : Nat → K) (size : Nat) : zDataSum data size = ∑ i ∈ range size, data i := by
  unfold zDataSum
  have := forUp_inv (lo := 0) (hi := size) (fun i (t : K × K × K) => (t.2.1 + data i, t.2.1 + data i, t.2.2 + (data i - (t.2.1 + data i - t.2.1)))) (0, 0, 0)
    (P := fun m (t : K × K × K) => t = (∑ i ∈ range m, data i, ∑ i ∈ range m, data i, 0)) (by omega) (by simp) (by
      intro i t _ _ ih
      rw [ih, sum_range_succ]
      simp)
  simp only
  rw [this]
  simp

/-- **C45.** The mean. -/
theorem zDataMean_spec (data : Nat → K) (size : Nat) : zDataMean data size = (∑ i ∈ range size, data i) / size := by
  unfold zDataMean; rw [zDataSum_spec]

/-- **C45.** The variance is the mean squared deviation from the mean. -/
theorem zDataVar_spec (data : Nat → K) (size : Nat) : zDataVar data size = (∑ i ∈ range size, (data i - (∑ i ∈ range size, data i) / size)^2) / size := by
  unfold zDataVar
  rw [zDataMean_spec]
  simp only
  rw [Cont.forUp_sum0]
  congr 1
  exact sum_congr rfl fun i _ => by ring

/-- **C45.** The variance is not negative, and zero exactly if all data are equal. -/
theorem zDataVar_nonneg (data : Nat → K) (size : Nat) (h : 0 < size) :
    0 ≤ zDataVar data size ∧ (zDataVar data size = 0 ↔ ∀ i j, i < size → j < size → data i = data j) := by
  have hs : (0:K) < size := by exact_mod_cast h
  rw [zDataVar_spec]
  refine ⟨div_nonneg (sum_nonneg fun i _ => sq_nonneg _) hs.le, ?_⟩
  rw [div_eq_zero_iff, or_iff_left hs.ne', sum_eq_zero_iff_of_nonneg fun i _ => sq_nonneg _]
  constructor
  · intro g i j hi hj
    have e1 := sub_eq_zero.mp (pow_eq_zero_iff (two_ne_zero) |>.mp (g i (mem_range.mpr hi)))
    have e2 := sub_eq_zero.mp (pow_eq_zero_iff (two_ne_zero) |>.mp (g j (mem_range.mpr hj)))
    rw [e1, e2]
  · intro g i hi
    rw [mem_range] at hi
    have : ∑ j ∈ range size, data j = size * data i := by
      rw [sum_congr rfl (fun j hj => g j i (mem_range.mp hj) hi), sum_const, card_range, nsmul_eq_mul]
    rw [this, mul_div_cancel_left₀ _ hs.ne', sub_self]
    ring

/-- **C45.** Adding a constant to the data adds it to the mean and keeps the variance. -/
theorem zData_shift (data : Nat → K) (size : Nat) (h : 0 < size) (c : K) :
    zDataMean (fun i => data i + c) size = zDataMean data size + c ∧ zDataVar (fun i => data i + c) size = zDataVar data size := by
  have hs : (size:K) ≠ 0 := by exact_mod_cast h.ne'
  have e : (∑ i ∈ range size, (data i + c)) / size = (∑ i ∈ range size, data i) / size + c := by
    rw [sum_add_distrib, sum_const, card_range, nsmul_eq_mul, add_div, mul_div_cancel_left₀ _ hs]
  refine ⟨by rw [zDataMean_spec, zDataMean_spec, e], ?_⟩
  rw [zDataVar_spec, zDataVar_spec, e]
  congr 1
  exact sum_congr rfl fun i _ => by ring

/-- **C45.** Scaling the data scales the mean and, by the square, the variance. -/
theorem zData_scale (data : Nat → K) (size : Nat) (c : K) :
    zDataMean (fun i => c * data i) size = c * zDataMean data size ∧ zDataVar (fun i => c * data i) size = c^2 * zDataVar data size := by
  have e : (∑ i ∈ range size, c * data i) / size = c * ((∑ i ∈ range size, data i) / size) := by
    rw [← mul_sum, mul_div_assoc]
  refine ⟨by rw [zDataMean_spec, zDataMean_spec, e], ?_⟩
  rw [zDataVar_spec, zDataVar_spec, e]
  have e2 : ∑ i ∈ range size, (c * data i - c * ((∑ i ∈ range size, data i) / size))^2 = c^2 * ∑ i ∈ range size, (data i - (∑ i ∈ range size, data i) / size)^2 := by
    rw [mul_sum]
    exact sum_congr rfl fun i _ => by ring
  rw [e2, mul_div_assoc]

/-- Membership up to the tolerance. -/
theorem zDataIsIncluded_spec (data : Nat → K) (val tol : K) (size : Nat) :
    zDataIsIncluded data val tol size 0 = true ↔ ∃ i, i < size ∧ |data i - val| ≤ tol * max 1 (max |data i| |val|) := by
  have : ∀ fuel k, zDataIsIncluded data val tol fuel k = true ↔ ∃ i, k ≤ i ∧ i < k + fuel ∧ |data i - val| ≤ tol * max 1 (max |data i| |val|) := by
    intro fuel
    induction fuel with
    | zero => intro k; simp only [zDataIsIncluded]; constructor
              · intro h; exact absurd h (by simp)
              · rintro ⟨i, a, b, _⟩; omega
    | succ f ih =>
      intro k
      unfold zDataIsIncluded
      have hiff := Misc.zEqual_iff (.fin (data k)) (.fin val) tol
      by_cases h : Misc.zEqual (.fin (data k)) (.fin val) tol = true
      · rw [if_pos h]
        obtain ⟨x, y, e1, e2, g⟩ := hiff.mp h
        injection e1 with e1; injection e2 with e2
        subst e1 e2
        exact ⟨fun _ => ⟨k, le_refl _, by omega, g⟩, fun _ => rfl⟩
      · rw [if_neg h, ih]
        constructor
        · rintro ⟨i, a, b, c⟩; exact ⟨i, by omega, by omega, c⟩
        · rintro ⟨i, a, b, c⟩
          refine ⟨i, ?_, by omega, c⟩
          by_contra hc
          have : i = k := by omega
          subst this
          exact h (hiff.mpr ⟨_, _, rfl, rfl, c⟩)
  rw [this]
  simp

/-- **C45.** Sum of a list of vectors, component by component. -/
theorem zVecListSum_spec (n : Nat) (l : List (Nat → K)) (j : Nat) (hj : j < n) : zVecListSum n l j = (l.map fun v => v j).sum := by
  have : ∀ (l : List (Nat → K)) (s : Nat → K), l.foldl (fun sum v => forUp 0 n (fun j s => set1 s j (s j + v j)) sum) s j = s j + (l.map fun v => v j).sum := by
    intro l
    induction l with
    | nil => intro s; simp
    | cons v l ih =>
      intro s
      rw [List.foldl_cons, ih, forUp_set1 (lo := 0) (hi := n) _ s (fun j => s j + v j) (fun j u h1 h2 h3 h4 => by rw [h4 j (by omega)])]
      simp only
      rw [if_pos (by omega), List.map_cons, List.sum_cons, add_assoc]
  unfold zVecListSum
  rw [this, zero_add]

/-- **C45.** The mean of a list of vectors (the tolerance is below one). -/
theorem zVecListMean_spec (tol : K) (htol : tol < 1) (n : Nat) (l : List (Nat → K)) (hl : l ≠ []) :
    (zVecListMean tol n l).2 = true ∧ ∀ j, j < n → (zVecListMean tol n l).1 j = (l.map fun v => v j).sum / l.length := by
  have h1 : (1:K) ≤ l.length := by exact_mod_cast List.length_pos_iff.mpr hl
  unfold zVecListMean
  simp only
  rw [if_neg (by rw [abs_of_nonneg (zero_le_one.trans h1)]; exact not_le.mpr (lt_of_lt_of_le htol h1))]
  refine ⟨rfl, fun j hj => ?_⟩
  simp only
  rw [forUp_set1 (lo := 0) (hi := n) _ _ (fun j => zVecListSum n l j / l.length) (fun j u h1 h2 h3 h4 => by rw [h4 j (by omega)])]
  simp only
  rw [if_pos (by omega), zVecListSum_spec n l j hj]

/-- **C45.** An empty list has no mean. -/
theorem zVecListMean_empty (tol : K) (htol : 0 ≤ tol) (n : Nat) : (zVecListMean tol n ([] : List (Nat → K))).2 = false := by
  unfold zVecListMean
  simp only [List.length_nil, Nat.cast_zero, abs_zero]
  rw [if_pos htol]

/-- **C45.** The variance of a list of vectors about a vector: the mean squared distance. -/
theorem zVecListVar_spec (n : Nat) (l : List (Nat → K)) (mean : Nat → K) :
    zVecListVar n l mean = (l.map fun v => ∑ i ∈ range n, (v i - mean i)^2).sum / l.length := by
  have : ∀ (l : List (Nat → K)) (a : K), l.foldl (fun var v => var + Cont.zVecSqrDist n v mean) a = a + (l.map fun v => ∑ i ∈ range n, (v i - mean i)^2).sum := by
    intro l
    induction l with
    | nil => intro a; simp
    | cons v l ih => intro a; rw [List.foldl_cons, ih, Cont.zVecSqrDist_spec, List.map_cons, List.sum_cons, add_assoc]
  unfold zVecListVar
  rw [this, zero_add]

theorem dyad_loop (n : Nat) (c : Nat → Nat → K) (F : Nat → Nat → K → K) (i j : Nat) (hi : i < n) (hj : j < n) :
    forUp 0 n (fun i c => forUp 0 n (fun j c => set2 c i j (F i j (c i j))) c) c i j = F i j (c i j) := by
  have row : ∀ (q : Nat) (c : Nat → Nat → K), forUp 0 n (fun j c => set2 c q j (F q j (c q j))) c =
      fun a b => if a = q ∧ b < n then F q b (c q b) else c a b := by
    intro q c
    refine forUp_inv (lo := 0) (hi := n) _ c (P := fun m (d : Nat → Nat → K) => d = fun a b => if a = q ∧ b < m then F q b (c q b) else c a b) (by omega) ?_ ?_
    · funext a b; rw [if_neg (by omega)]
    · intro m d _ _ ih
      rw [ih]
      funext a b
      by_cases e : a = q ∧ b = m
      · obtain ⟨rfl, rfl⟩ := e
        rw [set2_same, if_pos ⟨rfl, by omega⟩]
        beta_reduce
        rw [if_neg (by omega)]
      · rw [set2_ne _ _ e]
        by_cases e2 : a = q ∧ b < m
        · rw [if_pos e2, if_pos ⟨e2.1, by omega⟩]
        · rw [if_neg e2, if_neg (by omega)]
  have := forUp_inv (lo := 0) (hi := n) (fun i c => forUp 0 n (fun j c => set2 c i j (F i j (c i j))) c) c
    (P := fun m (d : Nat → Nat → K) => ∀ a b, b < n → d a b = if a < m then F a b (c a b) else c a b) (by omega) (by intro a b _; rw [if_neg (by omega)]) (by
      intro m d _ _ ih a b hb
      rw [row]
      simp only
      by_cases e : a = m
      · subst e
        rw [if_pos ⟨rfl, hb⟩, if_pos (by omega), ih a b hb, if_neg (by omega)]
      · rw [if_neg (by omega), ih a b hb]
        by_cases e2 : a < m
        · rw [if_pos e2, if_pos (by omega)]
        · rw [if_neg e2, if_neg (by omega)])
  rw [this i j hj, if_pos hi]

/-- **C45.** The variance-covariance matrix. -/
theorem zVecListCov_spec (tol : K) (htol : tol < 1) (n : Nat) (l : List (Nat → K)) (hl : l ≠ []) (mean : Nat → K) :
    (zVecListCov tol n l mean).2 = true ∧
    ∀ i j, i < n → j < n → (zVecListCov tol n l mean).1 i j = (l.map fun v => (v i - mean i) * (v j - mean j)).sum / l.length := by
  have h1 : (1:K) ≤ l.length := by exact_mod_cast List.length_pos_iff.mpr hl
  have hf : ∀ (l : List (Nat → K)) (c : Nat → Nat → K) i j, i < n → j < n →
      l.foldl (fun (cov : Nat → Nat → K) d => forUp 0 n (fun i c => forUp 0 n (fun j c => set2 c i j (c i j + (d i - mean i) * (d j - mean j))) c) cov) c i j =
        c i j + (l.map fun v => (v i - mean i) * (v j - mean j)).sum := by
    intro l
    induction l with
    | nil => intro c i j _ _; simp
    | cons v l ih =>
      intro c i j hi hj
      rw [List.foldl_cons, ih _ i j hi hj, dyad_loop n c (fun i j x => x + (v i - mean i) * (v j - mean j)) i j hi hj, List.map_cons, List.sum_cons, add_assoc]
  unfold zVecListCov
  simp only
  rw [if_neg (by rw [abs_of_nonneg (zero_le_one.trans h1)]; exact not_le.mpr (lt_of_lt_of_le htol h1))]
  refine ⟨rfl, fun i j hi hj => ?_⟩
  simp only
  rw [dyad_loop n _ (fun i j x => x / (l.length : K)) i j hi hj, hf l _ i j hi hj, zero_add]

/-- **C45.** Consequences: the covariance matrix is symmetric, and its trace is the variance. -/
theorem zVecListCov_symm_trace (tol : K) (htol : tol < 1) (n : Nat) (l : List (Nat → K)) (hl : l ≠ []) (mean : Nat → K) :
    (∀ i j, i < n → j < n → (zVecListCov tol n l mean).1 i j = (zVecListCov tol n l mean).1 j i) ∧
    ∑ i ∈ range n, (zVecListCov tol n l mean).1 i i = zVecListVar n l mean := by
  obtain ⟨_, h⟩ := zVecListCov_spec tol htol n l hl mean
  constructor
  · intro i j hi hj
    rw [h i j hi hj, h j i hj hi]
    congr 2
    refine List.map_congr_left fun v _ => mul_comm _ _
  · rw [zVecListVar_spec, sum_congr rfl (fun i hi => h i i (mem_range.mp hi) (mem_range.mp hi)), ← Finset.sum_div]
    congr 1
    clear h hl
    rename_i hh; clear hh
    induction l with
    | nil => simp
    | cons v l ih =>
      simp only [List.map_cons, List.sum_cons]
      rw [sum_add_distrib, ih]
      congr 1
      exact sum_congr rfl fun i _ => by ring

/-- **C45.** The corner vectors are the least and greatest components of the list (each attained). -/
theorem zVecListMinMax_spec (n : Nat) (l : List (Nat → K)) (hl : l ≠ []) (j : Nat) (hj : j < n) :
    (∃ v ∈ l, (zVecListMinMax n l).1 j = some (v j) ∧ ∀ u ∈ l, v j ≤ u j) ∧ (∃ v ∈ l, (zVecListMinMax n l).2 j = some (v j) ∧ ∀ u ∈ l, u j ≤ v j) := by
  -- one pass over the components acts on each component separately
  let step : (Nat → Option K) × (Nat → Option K) → Nat → (Nat → K) → Option K × Option K := fun s i v =>
    (match s.1 i with | none => some (v i) | some m => if m > v i then some (v i) else some m,
     match s.2 i with | none => some (v i) | some m => if m < v i then some (v i) else some m)
  have inner : ∀ (v : Nat → K) (s : (Nat → Option K) × (Nat → Option K)),
      let r := forUp 0 n (fun i (s : (Nat → Option K) × (Nat → Option K)) =>
        let s := match s.1 i with
          | none => (set1 s.1 i (some (v i)), s.2)
          | some m => if m > v i then (set1 s.1 i (some (v i)), s.2) else s
        match s.2 i with
          | none => (s.1, set1 s.2 i (some (v i)))
          | some m => if m < v i then (s.1, set1 s.2 i (some (v i))) else s) s
      ∀ i, i < n → (r.1 i, r.2 i) = step s i v := by
    intro v s
    have := forUp_inv (lo := 0) (hi := n) (fun i (s : (Nat → Option K) × (Nat → Option K)) =>
        let s := match s.1 i with
          | none => (set1 s.1 i (some (v i)), s.2)
          | some m => if m > v i then (set1 s.1 i (some (v i)), s.2) else s
        match s.2 i with
          | none => (s.1, set1 s.2 i (some (v i)))
          | some m => if m < v i then (s.1, set1 s.2 i (some (v i))) else s) s
      (P := fun m (r : (Nat → Option K) × (Nat → Option K)) => ∀ i, (r.1 i, r.2 i) = if i < m then step s i v else (s.1 i, s.2 i)) (by omega)
      (by intro i; rw [if_neg (by omega)]) (by
        intro m r _ _ ih i
        have ihm := ih m
        rw [if_neg (by omega)] at ihm
        injection ihm with e1 e2
        by_cases hi : i = m
        · subst hi
          rw [if_pos (by omega)]
          simp only [step]
          rw [← e1, ← e2]
          cases h1 : r.1 i with
          | none => cases h2 : r.2 i with
            | none => simp [h2]
            | some y => by_cases hy : y < v i <;> simp [h2, hy]
          | some x => cases h2 : r.2 i with
            | none => by_cases hx : x > v i <;> simp [h1, h2, hx]
            | some y => by_cases hx : x > v i <;> by_cases hy : y < v i <;> simp [h1, h2, hx, hy]
        · have ihi := ih i
          have : (if i < m + 1 then step s i v else (s.1 i, s.2 i)) = (if i < m then step s i v else (s.1 i, s.2 i)) := by
            by_cases h : i < m
            · rw [if_pos h, if_pos (by omega)]
            · rw [if_neg h, if_neg (by omega)]
          rw [this, ← ihi]
          cases h1 : r.1 m with
          | none => cases h2 : r.2 m with
            | none => simp [h2, set1_ne _ _ hi]
            | some y => by_cases hy : y < v m <;> simp [h2, hy, set1_ne _ _ hi]
          | some x => cases h2 : r.2 m with
            | none => by_cases hx : x > v m <;> simp [h2, hx, set1_ne _ _ hi]
            | some y => by_cases hx : x > v m <;> by_cases hy : y < v m <;> simp [h2, hx, hy, set1_ne _ _ hi])
    intro r i hi
    have h := this i
    rw [if_pos hi] at h
    exact h
  -- invariant over the list
  have outer : ∀ (l pre : List (Nat → K)) (s : (Nat → Option K) × (Nat → Option K)),
      ((pre = [] ∧ s.1 j = none ∧ s.2 j = none) ∨ ((∃ v ∈ pre, s.1 j = some (v j) ∧ ∀ u ∈ pre, v j ≤ u j) ∧ (∃ v ∈ pre, s.2 j = some (v j) ∧ ∀ u ∈ pre, u j ≤ v j))) →
      let r := l.foldl (fun s v => forUp 0 n (fun i (s : (Nat → Option K) × (Nat → Option K)) =>
        let s := match s.1 i with
          | none => (set1 s.1 i (some (v i)), s.2)
          | some m => if m > v i then (set1 s.1 i (some (v i)), s.2) else s
        match s.2 i with
          | none => (s.1, set1 s.2 i (some (v i)))
          | some m => if m < v i then (s.1, set1 s.2 i (some (v i))) else s) s) s
      (pre ++ l = [] ∧ r.1 j = none ∧ r.2 j = none) ∨ ((∃ v ∈ pre ++ l, r.1 j = some (v j) ∧ ∀ u ∈ pre ++ l, v j ≤ u j) ∧ (∃ v ∈ pre ++ l, r.2 j = some (v j) ∧ ∀ u ∈ pre ++ l, u j ≤ v j)) := by
    intro l
    induction l with
    | nil => intro pre s h; simpa using h
    | cons x l ih =>
      intro pre s h
      rw [show pre ++ x :: l = (pre ++ [x]) ++ l by simp, List.foldl_cons]
      refine ih (pre ++ [x]) _ (Or.inr ?_)
      have hs := inner x s j hj
      injection hs with e1 e2
      rcases h with ⟨rfl, h1, h2⟩ | ⟨⟨v, v1, v2, v3⟩, ⟨w, w1, w2, w3⟩⟩
      · rw [h1] at e1
        rw [h2] at e2
        exact ⟨⟨x, by simp, e1, by simp⟩, ⟨x, by simp, e2, by simp⟩⟩
      · rw [v2] at e1
        rw [w2] at e2
        simp only at e1 e2
        constructor
        · by_cases hlt : v j > x j
          · rw [if_pos hlt] at e1
            refine ⟨x, by simp, e1, fun u hu => ?_⟩
            rcases List.mem_append.mp hu with hu | hu
            · exact hlt.le.trans (v3 u hu)
            · rw [List.mem_singleton.mp hu]
          · rw [if_neg hlt] at e1
            refine ⟨v, by simp [v1], e1, fun u hu => ?_⟩
            rcases List.mem_append.mp hu with hu | hu
            · exact v3 u hu
            · rw [List.mem_singleton.mp hu]; exact not_lt.mp hlt
        · by_cases hlt : w j < x j
          · rw [if_pos hlt] at e2
            refine ⟨x, by simp, e2, fun u hu => ?_⟩
            rcases List.mem_append.mp hu with hu | hu
            · exact (w3 u hu).trans hlt.le
            · rw [List.mem_singleton.mp hu]
          · rw [if_neg hlt] at e2
            refine ⟨w, by simp [w1], e2, fun u hu => ?_⟩
            rcases List.mem_append.mp hu with hu | hu
            · exact w3 u hu
            · rw [List.mem_singleton.mp hu]; exact not_lt.mp hlt
  have := outer l [] (fun _ => none, fun _ => none) (Or.inl ⟨rfl, rfl, rfl⟩)
  rw [List.nil_append] at this
  rcases this with ⟨h, _⟩ | h
  · exact absurd h hl
  · exact h

/-! ## C85: peaks -/

/-- A strict local maximum inside the data. -/
def Peak (src : Nat → K) (size i : Nat) : Prop := 0 < i ∧ i + 1 < size ∧ src (i-1) < src i ∧ src (i+1) < src i

theorem isPeak_iff (src : Nat → K) (size i : Nat) : isPeak src size i = true ↔ Peak src size i := by
  unfold isPeak Peak
  by_cases h : i = 0 ∨ i + 1 ≥ size
  · rw [if_pos h]
    constructor
    · intro h; exact absurd h (by simp)
    · rintro ⟨a, b, _⟩; omega
  · rw [if_neg h]
    simp only [gt_iff_lt, Bool.and_eq_true, decide_eq_true_eq]
    push Not at h
    exact ⟨fun ⟨a, b⟩ => ⟨by omega, by omega, a, b⟩, fun ⟨_, _, a, b⟩ => ⟨a, b⟩⟩

/-- **C85.** Every reported index is a peak; consecutive reported peaks are more than `w` apart; for every peak there is a reported one
at least as high (so the highest peak is reported). -/
theorem zDataPeak_spec (src : Nat → K) (size : Nat) (w : Int) :
    (∀ i ∈ zDataPeak src size w, Peak src size i) ∧
    (zDataPeak src size w).IsChain (fun a b : Nat => (a : Int) > (b : Int) + w ∧ a > b) ∧
    (∀ i, Peak src size i → ∃ k ∈ zDataPeak src size w, src i ≤ src k) := by
  have := forUp_inv (lo := 1) (hi := max 1 size) (peakStep src size w) ([] : List Nat)
    (P := fun m (l : List Nat) => (∀ i ∈ l, Peak src size i ∧ i < m) ∧ l.IsChain (fun a b : Nat => (a : Int) > (b : Int) + w ∧ a > b) ∧
      (∀ i, i < m → Peak src size i → ∃ k ∈ l, src i ≤ src k)) (by omega)
    ⟨by simp, by simp, fun i hi hp => by unfold Peak at hp; omega⟩ (by
      intro m l h1 h2 ⟨a, b, c⟩
      unfold peakStep
      by_cases hp : isPeak src size m = true
      · rw [if_pos hp]
        have hP := (isPeak_iff src size m).mp hp
        have cc : ∀ (l' : List Nat), (∀ k ∈ l, ∃ k' ∈ l', src k ≤ src k') → (∃ k' ∈ l', src m ≤ src k') → ∀ i, i < m + 1 → Peak src size i → ∃ k ∈ l', src i ≤ src k := by
          intro l' g1 g2 i hi hpi
          by_cases e : i = m
          · subst e; exact g2
          · obtain ⟨k, k1, k2⟩ := c i (by omega) hpi
            obtain ⟨k', k3, k4⟩ := g1 k k1
            exact ⟨k', k3, k2.trans k4⟩
        match l, a, b, c, cc with
        | [], a, b, c, cc =>
          exact ⟨by simpa using hP, by simp, cc _ (by simp) ⟨m, by simp, le_refl _⟩⟩
        | h :: t, a, b, c, cc =>
          simp only
          have hhm : h < m := (a h (by simp)).2
          split
          · rename_i hgt
            refine ⟨fun i hi => ?_, ?_, cc _ (fun k hk => ⟨k, by simp [List.mem_cons.mp hk], le_refl _⟩) ⟨m, by simp, le_refl _⟩⟩
            · rcases List.mem_cons.mp hi with rfl | hi
              · exact ⟨hP, by omega⟩
              · exact ⟨(a i hi).1, by have := (a i hi).2; omega⟩
            · rw [List.isChain_cons_cons]; exact ⟨⟨hgt, hhm⟩, b⟩
          · split
            · rename_i _ hgt
              refine ⟨fun i hi => ?_, ?_, cc _ (fun k hk => ?_) ⟨m, by simp, le_refl _⟩⟩
              · rcases List.mem_cons.mp hi with rfl | hi
                · exact ⟨hP, by omega⟩
                · have := a i (by simp [hi]); exact ⟨this.1, by omega⟩
              · cases t with
                | nil => simp
                | cons h' t' =>
                  rw [List.isChain_cons_cons] at b ⊢
                  exact ⟨⟨by have := b.1.1; omega, by have := b.1.2; omega⟩, b.2⟩
              · rcases List.mem_cons.mp hk with rfl | hk
                · exact ⟨m, by simp, hgt.le⟩
                · exact ⟨k, by simp [hk], le_refl _⟩
            · rename_i _ hgt
              refine ⟨fun i hi => ⟨(a i hi).1, by have := (a i hi).2; omega⟩, b, cc _ (fun k hk => ⟨k, hk, le_refl _⟩) ⟨h, by simp, not_lt.mp hgt⟩⟩
      · rw [if_neg hp]
        refine ⟨fun i hi => ⟨(a i hi).1, by have := (a i hi).2; omega⟩, b, fun i hi hpi => ?_⟩
        by_cases e : i = m
        · subst e; exact absurd ((isPeak_iff src size i).mpr hpi) hp
        · exact c i (by omega) hpi)
  have e : zDataPeak src size w = forUp 1 (max 1 size) (peakStep src size w) ([] : List Nat) := by
    unfold zDataPeak
    by_cases h : 1 ≤ size
    · rw [max_eq_right h]
    · rw [max_eq_left (by omega), forUp_of_le (by omega), forUp_of_le (le_refl _)]
  rw [e]
  refine ⟨fun i hi => (this.1 i hi).1, this.2.1, fun i hp => this.2.2 i ?_ hp⟩
  have := hp.2.1
  omega

example : zDataPeak (fun i => [0, 3, 0, 5, 0, 1, 0, 4, 0].getD i (0:ℤ) |> fun x => (x : ℚ)) 9 3 = [7, 3] := by
  norm_num [zDataPeak, peakStep, isPeak, forUp, forN]

/-! ## C86: windows of the smoothing filter -/

/-- **C86, the proved part.** For an even window length the filter stays inside the data, and every smoothed value is the fit of a window
that contains the sample, evaluated at the sample. -/
theorem smoothSG_even_partial {P : Type*} (fit : (Nat → K) → Option P) (ev : P → Int → K) (src : Nat → K) (size wh : Nat) (hw : 0 < wh) (hs : 2 * wh ≤ size)
    (hfit : ∀ u, ∃ p, fit u = some p) (dest : Nat → K) :
    ∃ d, smoothSG fit ev src size (2 * wh) dest = .ok d ∧
      ∀ i, i < size → ∃ start p, start ≤ i ∧ i < start + 2 * wh ∧ start + 2 * wh ≤ size ∧ fit (fun j => src (start + j)) = some p ∧ d i = ev p ((i : Int) - start) := by
  unfold smoothSG
  rw [if_neg (by omega), if_neg (by omega)]
  obtain ⟨p0, hp0⟩ := hfit src
  rw [hp0]
  simp only
  rw [show 2 * wh / 2 = wh by omega]
  obtain ⟨s, hsr, hsP⟩ := forUpM_ok (lo := wh) (hi := size - wh) (sgStep fit ev src size (2 * wh)) (0, p0, forUp 0 wh (fun i d => set1 d i (ev p0 i)) dest)
    (P := fun m (s : Nat × P × (Nat → K)) => s.1 = m - wh ∧ fit (fun j => src (s.1 + j)) = some s.2.1 ∧
      ∀ i, i < m → ∃ start p, start ≤ i ∧ i < start + 2 * wh ∧ start + 2 * wh ≤ size ∧ fit (fun j => src (start + j)) = some p ∧ s.2.2 i = ev p ((i : Int) - start)) (by omega)
    ⟨by simp, by simpa using hp0, by
      intro i hi
      refine ⟨0, p0, by omega, by omega, by omega, by simpa using hp0, ?_⟩
      simp only
      rw [forUp_set1 (lo := 0) (hi := wh) _ dest (fun i => ev p0 i) (fun _ _ _ _ _ _ => rfl)]
      simp only
      rw [if_pos (by omega)]
      simp⟩ (by
      intro i s h1 h2 ⟨e1, e2, e3⟩
      obtain ⟨p, hp⟩ := hfit (fun j => src (s.1 + 1 + j))
      unfold sgStep
      rw [if_neg (by omega), hp]
      refine ⟨_, rfl, by simp only; omega, by simpa using hp, fun k hk => ?_⟩
      simp only
      by_cases e : k = i
      · subst e
        refine ⟨s.1 + 1, p, by omega, by omega, by omega, hp, ?_⟩
        rw [set1_same]
        congr 1
        omega
      · rw [set1_ne _ _ e]
        exact e3 k (by omega))
  rw [hsr]
  simp only [Res.bind]
  obtain ⟨e1, e2, e3⟩ := hsP
  refine ⟨_, rfl, fun i hi => ?_⟩
  rw [show max wh (size - wh) = size - wh by omega]
  rw [forUp_set1 (lo := size - wh) (hi := size) _ s.2.2 (fun i => ev s.2.1 ((i : Int) - ((size - wh : Nat) : Int) + wh)) (fun _ _ _ _ _ _ => rfl)]
  simp only
  by_cases hi2 : size - wh ≤ i
  · rw [if_pos ⟨hi2, hi⟩]
    refine ⟨s.1, s.2.1, by omega, by omega, by omega, e2, ?_⟩
    congr 1
    omega
  · rw [if_neg (by omega)]
    exact e3 i (by omega)

/-- **C86 is violated.** For every odd window length the filter reads one value behind the data (unless a fit fails before). -/
theorem smoothSG_odd_violated {P : Type*} (fit : (Nat → K) → Option P) (ev : P → Int → K) (src : Nat → K) (size wh : Nat) (hs : 2 * wh + 1 ≤ size)
    (hfit : ∀ u, ∃ p, fit u = some p) (dest : Nat → K) : smoothSG fit ev src size (2 * wh + 1) dest = .ub := by
  unfold smoothSG
  rw [if_neg (by omega), if_neg (by omega)]
  obtain ⟨p0, hp0⟩ := hfit src
  rw [hp0]
  simp only
  rw [show (2 * wh + 1) / 2 = wh by omega, forUpM_split (lo := wh) (mid := size - wh - 1) (hi := size - wh) (by omega) (by omega)]
  obtain ⟨s, hsr, hsP⟩ := forUpM_ok (lo := wh) (hi := size - wh - 1) (sgStep fit ev src size (2 * wh + 1)) (0, p0, forUp 0 wh (fun i d => set1 d i (ev p0 i)) dest)
    (P := fun m (s : Nat × P × (Nat → K)) => s.1 = m - wh) (by omega) (by simp) (by
      intro i s h1 h2 e1
      obtain ⟨p, hp⟩ := hfit (fun j => src (s.1 + 1 + j))
      unfold sgStep
      rw [if_neg (by omega), hp]
      exact ⟨_, rfl, by simp only; omega⟩)
  rw [hsr]
  simp only [Res.bind]
  rw [forUpM_cons (by omega)]
  unfold sgStep
  rw [if_pos (by omega)]
  rfl

/-! ## C87: distributions -/

/-- **C87.** The binomial distribution is the textbook one, non-negative for probabilities, and sums to one. -/
theorem zBinDistrib_spec (n : Nat) (p : K) :
    (∀ x, x ≤ n → zBinDistrib x n p = (n.choose x : K) * p ^ x * (1 - p) ^ (n - x)) ∧
    (0 ≤ p → p ≤ 1 → ∀ x, x ≤ n → 0 ≤ zBinDistrib x n p) ∧
    ∑ x ∈ range (n+1), zBinDistrib x n p = 1 := by
  have h : ∀ x, x ≤ n → zBinDistrib x n p = (n.choose x : K) * p ^ x * (1 - p) ^ (n - x) := by
    intro x hx
    unfold zBinDistrib
    rw [Misc.zCombination_eq n x hx]
  refine ⟨h, fun h0 h1 x hx => ?_, ?_⟩
  · rw [h x hx]
    have : 0 ≤ 1 - p := sub_nonneg.mpr h1
    positivity
  · have := add_pow p (1-p) n
    rw [add_sub_cancel, one_pow] at this
    rw [this]
    refine sum_congr rfl fun x hx => ?_
    rw [h x (by rw [mem_range] at hx; omega)]
    ring

end

/-- Density of the chi-squared distribution with `2m` degrees of freedom. -/
noncomputable def chi2Density (x : ℝ) (m : Nat) : ℝ := 1/2 * Real.exp (-(1/2) * x) * (x/2)^(m-1) / ((m-1).factorial : ℝ)

theorem chi2CumEven_eq (x : ℝ) (m : Nat) (hm : 0 < m) : chi2CumEven x m = 1 - Real.exp (-(1/2) * x) * ∑ i ∈ range m, (x/2)^i / (i.factorial : ℝ) := by
  unfold chi2CumEven
  simp only
  have := forUp_inv (lo := 1) (hi := m) (fun i (s : ℝ × ℝ) => (s.1 + s.2 * (x / ((2 * i : Nat) : ℝ)), s.2 * (x / ((2 * i : Nat) : ℝ)))) (Real.exp (-(1/2) * x), Real.exp (-(1/2) * x))
    (P := fun k (s : ℝ × ℝ) => s = (Real.exp (-(1/2) * x) * ∑ i ∈ range k, (x/2)^i / (i.factorial : ℝ), Real.exp (-(1/2) * x) * ((x/2)^(k-1) / ((k-1).factorial : ℝ)))) hm (by simp) (by
      intro i s h1 h2 ih
      rw [ih]
      have e : Real.exp (-(1/2) * x) * ((x/2)^(i-1) / ((i-1).factorial : ℝ)) * (x / ((2 * i : Nat) : ℝ)) = Real.exp (-(1/2) * x) * ((x/2)^i / (i.factorial : ℝ)) := by
        obtain ⟨j, rfl⟩ : ∃ j, i = j + 1 := ⟨i - 1, by omega⟩
        rw [Nat.add_sub_cancel, Nat.factorial_succ, pow_succ]
        have : ((j.factorial : ℕ) : ℝ) ≠ 0 := by exact_mod_cast j.factorial_ne_zero
        push_cast
        field_simp
      simp only
      rw [e, Nat.add_sub_cancel, sum_range_succ, mul_add])
  rw [this]

/-- **C87.** For an even number of degrees of freedom the cumulative chi-squared distribution vanishes at zero and its derivative is the
density. -/
theorem chi2CumEven_hasDerivAt (m : Nat) (hm : 0 < m) :
    chi2CumEven 0 m = 0 ∧ ∀ x, HasDerivAt (fun x => chi2CumEven x m) (chi2Density x m) x := by
  constructor
  · rw [chi2CumEven_eq 0 m hm]
    obtain ⟨j, rfl⟩ : ∃ j, m = j + 1 := ⟨m - 1, by omega⟩
    rw [sum_range_succ']
    simp
  · intro x
    have hfun : (fun x => chi2CumEven x m) = fun x => 1 - Real.exp (-(1/2) * x) * ∑ i ∈ range m, (x/2)^i / (i.factorial : ℝ) := by
      funext x; exact chi2CumEven_eq x m hm
    rw [hfun]
    clear hfun
    obtain ⟨j, rfl⟩ : ∃ j, m = j + 1 := ⟨m - 1, by omega⟩
    clear hm
    unfold chi2Density
    rw [Nat.add_sub_cancel]
    have hexp : HasDerivAt (fun x : ℝ => Real.exp (-(1/2) * x)) (Real.exp (-(1/2) * x) * (-(1/2))) x := by
      have := ((hasDerivAt_id x).const_mul (-(1/2) : ℝ)).exp
      simpa using this
    have hpow : ∀ i : Nat, HasDerivAt (fun x : ℝ => (x/2)^i / (i.factorial : ℝ)) ((i : ℝ) * (x/2)^(i-1) * (1/2) / (i.factorial : ℝ)) x := by
      intro i
      exact (((hasDerivAt_id x).div_const 2).pow i).div_const _
    have hsum : HasDerivAt (fun x : ℝ => ∑ i ∈ range (j+1), (x/2)^i / (i.factorial : ℝ)) (∑ i ∈ range (j+1), (i : ℝ) * (x/2)^(i-1) * (1/2) / (i.factorial : ℝ)) x :=
      HasDerivAt.fun_sum fun i _ => hpow i
    have htel : ∑ i ∈ range (j+1), (i : ℝ) * (x/2)^(i-1) * (1/2) / (i.factorial : ℝ) = 1/2 * ∑ i ∈ range j, (x/2)^i / (i.factorial : ℝ) := by
      rw [sum_range_succ', mul_sum]
      simp only [Nat.cast_zero, zero_mul, zero_div, add_zero, Nat.add_sub_cancel]
      refine sum_congr rfl fun i _ => ?_
      rw [Nat.factorial_succ]
      have : ((i.factorial : ℕ) : ℝ) ≠ 0 := by exact_mod_cast i.factorial_ne_zero
      push_cast
      field_simp
    have h := (hasDerivAt_const x (1:ℝ)).sub (hexp.mul hsum)
    refine h.congr_deriv ?_
    rw [htel, sum_range_succ]
    generalize ∑ i ∈ range j, (x/2)^i / (i.factorial : ℝ) = S
    ring

/-! ## C46: histogram -/

section
variable {K : Type*} [Field K] [LinearOrder K] [IsStrictOrderedRing K] [FloorRing K]

/-- The bin that a value of the range belongs to: `b` with `b ≤ position < b+1`, the last one for the maximum. -/
def InBin (h : Hist K) (b : Nat) (val : K) : Prop :=
  h.min + (h.max - h.min) * b / h.num ≤ val ∧ (val < h.min + (h.max - h.min) * (b+1) / h.num ∨ (b + 1 = h.num ∧ val = h.max))

/-- **C46.** A vote for a value in the range increments exactly the bin that the value belongs to. -/
theorem zHistogramVote_spec (h : Hist K) (hr : h.min < h.max) (hn : 0 < h.num) (hn2 : h.num ≤ 2147483647) (val : K) (h1 : h.min ≤ val) (h2 : val ≤ h.max) :
    ∃ b, b < h.num ∧ InBin h b val ∧ zHistogramVote h val = .ok { h with bin := set1 h.bin b (h.bin b + 1) } := by
  have hd : 0 < h.max - h.min := sub_pos.mpr hr
  have hN : (0:K) < h.num := by exact_mod_cast hn
  set y := (val - h.min) / (h.max - h.min) * (h.num : K) with hy
  have hy0 : 0 ≤ y := mul_nonneg (div_nonneg (sub_nonneg.mpr h1) hd.le) hN.le
  have hyN : y ≤ h.num := by
    have : (val - h.min) / (h.max - h.min) ≤ 1 := (div_le_one hd).mpr (by linarith)
    calc y ≤ 1 * (h.num : K) := mul_le_mul_of_nonneg_right this hN.le
      _ = _ := one_mul _
  have hf0 : 0 ≤ ⌊y⌋ := Int.floor_nonneg.mpr hy0
  have hfN : ⌊y⌋ ≤ (h.num : Int) := by
    have : (⌊y⌋ : K) ≤ ((h.num : Int) : K) := (Int.floor_le y).trans (by exact_mod_cast hyN)
    exact_mod_cast this
  have hval : val = h.min + (h.max - h.min) * y / h.num := by
    rw [hy]; field_simp; ring
  unfold zHistogramVote
  rw [if_neg hd.ne']
  have ht : toInt y = .ok ⌊y⌋ := by
    unfold toInt
    simp only
    rw [if_pos hy0, if_pos (by omega)]
  rw [← hy, ht]
  simp only [Res.bind]
  rw [if_neg (not_lt.mpr hf0)]
  by_cases hlast : ⌊y⌋ > (h.num : Int) - 1
  · have heq : ⌊y⌋ = (h.num : Int) := by omega
    have hyeq : y = h.num := by
      apply le_antisymm hyN
      have := Int.floor_le y
      rw [heq] at this
      exact_mod_cast this
    rw [if_pos hlast, if_pos ⟨by omega, by omega⟩]
    have e : ((h.num : Int) - 1).toNat = h.num - 1 := by omega
    rw [e]
    refine ⟨h.num - 1, by omega, ⟨?_, Or.inr ⟨by omega, ?_⟩⟩, rfl⟩
    · rw [hval, hyeq]
      have : ((h.num - 1 : Nat) : K) ≤ h.num := by exact_mod_cast Nat.sub_le _ _
      gcongr
    · rw [hval, hyeq, mul_div_assoc, div_self hN.ne']; ring
  · rw [if_neg hlast, if_pos ⟨hf0, by omega⟩]
    obtain ⟨b, hb⟩ := Int.eq_ofNat_of_zero_le hf0
    rw [hb]
    simp only [Int.toNat_natCast]
    refine ⟨b, by omega, ⟨?_, Or.inl ?_⟩, rfl⟩
    · have : ((b:Int):K) ≤ y := by rw [← hb]; exact Int.floor_le y
      rw [hval]
      have : (b:K) ≤ y := by exact_mod_cast this
      gcongr
    · have : y < ((b:Int):K) + 1 := by rw [← hb]; exact Int.lt_floor_add_one y
      rw [hval]
      have : y < (b:K) + 1 := by exact_mod_cast this
      have h3 : (h.max - h.min) * y < (h.max - h.min) * ((b:K)+1) := mul_lt_mul_of_pos_left this hd
      have := div_lt_div_of_pos_right h3 hN
      linarith

/-- The number of votes in all bins. -/
def total (h : Hist K) : Nat := ∑ b ∈ range h.num, h.bin b

/-- **C46.** A histogram over a range that contains the data counts every datum in the bin it belongs to: the count of each bin is the number
of data in it, and the counts add up to the number of data. -/
theorem zHistogramCreate_spec (data : Nat → K) (size : Nat) (lo hi : K) (num : Nat) (hr : lo < hi) (hn : 0 < num) (hn2 : num ≤ 2147483647)
    (hdata : ∀ i, i < size → lo ≤ data i ∧ data i ≤ hi) :
    ∃ h, zHistogramCreate data size lo hi num = .ok h ∧ h.min = lo ∧ h.max = hi ∧ h.num = num ∧
      ∃ bin : Nat → Nat, (∀ i, i < size → bin i < num ∧ InBin h (bin i) (data i)) ∧
        (∀ b, h.bin b = ((range size).filter fun i => bin i = b).card) ∧ total h = size := by
  unfold zHistogramCreate
  rw [if_neg (by omega)]
  obtain ⟨h, e1, e2, e3, e4, bin, b1, b2⟩ := forUpM_ok (lo := 0) (hi := size) (fun i h => zHistogramVote h (data i)) (⟨lo, hi, num, fun _ => 0⟩ : Hist K)
    (P := fun m (h : Hist K) => h.min = lo ∧ h.max = hi ∧ h.num = num ∧ ∃ bin : Nat → Nat, (∀ i, i < m → bin i < num ∧ InBin h (bin i) (data i)) ∧
        (∀ b, h.bin b = ((range m).filter fun i => bin i = b).card)) (by omega)
    ⟨rfl, rfl, rfl, fun _ => 0, by omega, by simp⟩ (by
      intro i h _ hi2 ⟨e1, e2, e3, bin, b1, b2⟩
      obtain ⟨b, g1, g2, g3⟩ := zHistogramVote_spec h (by rw [e1, e2]; exact hr) (by omega) (by omega) (data i) (by rw [e1]; exact (hdata i hi2).1) (by rw [e2]; exact (hdata i hi2).2)
      refine ⟨_, g3, e1, e2, e3, set1 bin i b, fun k hk => ?_, fun c => ?_⟩
      · by_cases e : k = i
        · subst e; rw [set1_same]; exact ⟨by omega, g2⟩
        · rw [set1_ne _ _ e]; exact b1 k (by omega)
      · have hfe : ((range (i+1)).filter fun k => set1 bin i b k = c) = if b = c then insert i ((range i).filter fun k => bin k = c) else (range i).filter fun k => bin k = c := by
          ext k
          simp only [mem_filter, mem_range]
          by_cases e : k = i
          · subst e
            rw [set1_same]
            split
            · rename_i hbc; simp [hbc]
            · rename_i hbc; simp [hbc]
          · rw [set1_ne _ _ e]
            split
            · simp only [mem_insert, mem_filter, mem_range, e, false_or]
              exact ⟨fun ⟨a, b⟩ => ⟨by omega, b⟩, fun ⟨a, b⟩ => ⟨by omega, b⟩⟩
            · simp only [mem_filter, mem_range]
              exact ⟨fun ⟨a, b⟩ => ⟨by omega, b⟩, fun ⟨a, b⟩ => ⟨by omega, b⟩⟩
        rw [hfe]
        simp only
        by_cases hbc : b = c
        · subst hbc
          rw [set1_same, if_pos rfl, card_insert_of_notMem (by simp), b2 b]
        · rw [set1_ne _ _ (Ne.symm hbc), if_neg hbc, b2 c])
  refine ⟨h, e1, e2, e3, e4, bin, b1, b2, ?_⟩
  unfold total
  rw [e4, sum_congr rfl (fun b _ => b2 b)]
  have := card_eq_sum_card_fiberwise (s := range size) (t := range num) (f := bin) (by
    intro i hi
    simp only [coe_range, Set.mem_Iio] at hi ⊢
    exact (b1 i hi).1)
  rw [card_range] at this
  exact this.symm

/-- **C46.** The automatic range: for at least two bins and data that are not all equal, every datum is counted. -/
theorem zHistogramCreateAuto_spec (data : Nat → K) (size num : Nat) (hs : 0 < size) (hn : 2 ≤ num) (hn2 : num ≤ 2147483647)
    (hne : ∃ i j, i < size ∧ j < size ∧ data i ≠ data j) :
    ∃ h, zHistogramCreateAuto data size num = .ok h ∧ h.num = num ∧ total h = size ∧ ∀ i, i < size → h.min < data i ∧ data i < h.max := by
  obtain ⟨m1, m2, m3, _⟩ := zDataMin_spec data size hs
  obtain ⟨M1, M2, M3, _⟩ := zDataMax_spec data size hs
  have hlt : (zDataMin data size).1 < (zDataMax data size).1 := by
    obtain ⟨i, j, hi, hj, hij⟩ := hne
    rcases lt_or_gt_of_ne hij with h | h
    · exact lt_of_le_of_lt (m3 i hi) (lt_of_lt_of_le h (M3 j hj))
    · exact lt_of_le_of_lt (m3 j hj) (lt_of_lt_of_le h (M3 i hi))
  unfold zHistogramCreateAuto
  have hn1 : (0:K) < (num:K) - 1 := by
    have : (2:K) ≤ num := by exact_mod_cast hn
    linarith
  rw [if_neg hn1.ne', zDataMinMax_spec data size hs]
  simp only
  have hmargin : 0 < 1/2 * ((zDataMax data size).1 - (zDataMin data size).1) / ((num:K) - 1) :=
    div_pos (mul_pos (by norm_num) (sub_pos.mpr hlt)) hn1
  generalize 1/2 * ((zDataMax data size).1 - (zDataMin data size).1) / ((num:K) - 1) = mg at hmargin
  obtain ⟨h, e1, e2, e3, e4, _, _, _, e5⟩ := zHistogramCreate_spec data size ((zDataMin data size).1 - mg) ((zDataMax data size).1 + mg) num (by linarith) (by omega) hn2
    (fun i hi => ⟨by linarith [m3 i hi], by linarith [M3 i hi]⟩)
  refine ⟨h, e1, e4, e5, fun i hi => ?_⟩
  rw [e2, e3]
  exact ⟨by linarith [m3 i hi], by linarith [M3 i hi]⟩

/-- **C46 is violated** for one bin: the margin divides by zero. -/
theorem zHistogramCreateAuto_one_ub (data : Nat → K) (size : Nat) : zHistogramCreateAuto data size 1 = .ub := by
  unfold zHistogramCreateAuto
  rw [if_pos (by simp)]

/-- **C46 is violated** for constant data: the range is empty and the vote divides by zero. -/
theorem zHistogramCreateAuto_constant_ub (c : K) (num : Nat) (hn : 2 ≤ num) : zHistogramCreateAuto (fun _ => c) 1 num = .ub := by
  unfold zHistogramCreateAuto
  have hn1 : (0:K) < (num:K) - 1 := by
    have : (2:K) ≤ num := by exact_mod_cast hn
    linarith
  rw [if_neg hn1.ne']
  simp [zDataMinMax, forUp, forN, zHistogramCreate, forUpM, forUpM_cons, zHistogramVote, show num ≠ 0 by omega, forNM]
  rfl

/-- **C46.** The limits of the bins: the lower limit of bin `i`, the upper limit of every bin but the last. -/
theorem zHistogramBin_limits (h : Hist K) (i : Nat) (hi : i < h.num) :
    zHistogramBinMin h i = h.min + (h.max - h.min) * i / h.num ∧
    (i + 1 < h.num → zHistogramBinMax h i = h.min + (h.max - h.min) * (i+1) / h.num) := by
  constructor
  · unfold zHistogramBinMin
    simp only
    rw [if_neg (by omega), if_neg (by omega)]
    simp
  · intro h2
    unfold zHistogramBinMax zHistogramBinMin
    simp only
    rw [if_neg (by omega), if_neg (by omega)]
    push_cast
    rfl

/-- **C46 is violated** by the upper limit of the last bin, which is reported to equal its lower limit. -/
theorem zHistogramBinMax_last_violated (h : Hist K) (hr : h.min < h.max) (hn : 0 < h.num) :
    zHistogramBinMax h ((h.num : Int) - 1) = zHistogramBinMin h ((h.num : Int) - 1) ∧ zHistogramBinMax h ((h.num : Int) - 1) < h.max := by
  have e : zHistogramBinMax h ((h.num : Int) - 1) = zHistogramBinMin h ((h.num : Int) - 1) := by
    unfold zHistogramBinMax zHistogramBinMin
    simp only
    rw [if_neg (by omega), if_pos (by omega), if_neg (by omega), if_neg (by omega)]
  refine ⟨e, ?_⟩
  rw [e]
  unfold zHistogramBinMin
  simp only
  rw [if_neg (by omega), if_neg (by omega)]
  have hN : (0:K) < h.num := by exact_mod_cast hn
  have hd : 0 < h.max - h.min := sub_pos.mpr hr
  have : (h.max - h.min) * (((h.num:Int) - 1 : Int) : K) / h.num < h.max - h.min := by
    rw [div_lt_iff₀ hN]
    apply mul_lt_mul_of_pos_left _ hd
    push_cast
    linarith
  linarith

end

example : ∃ i j, i < 2 ∧ j < 2 ∧ (fun i : Nat => (i:ℚ)) i ≠ (fun i : Nat => (i:ℚ)) j := ⟨0, 1, by norm_num⟩

end Zm.Stat
