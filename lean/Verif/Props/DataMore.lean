import Verif.Model.DataMore
import Verif.Props.Stat
import Verif.Props.IPMisc
import Verif.Props.LE
import Mathlib.Data.List.Sort
import Mathlib.Algebra.Polynomial.Roots

/-! # Sorting, selection, median (C194), smoothing by polynomials (C195), peaks of smoothed data (C196) -/

set_option linter.unusedSectionVars false

namespace Zm.Data
open Zm Finset Polynomial

section
variable {K : Type*} [Field K] [LinearOrder K] [IsStrictOrderedRing K]

theorem getD_get {s : List K} {k : Nat} (h : k < s.length) : s.getD k 0 = s[k] := by
  rw [List.getD_eq_getElem?_getD, List.getElem?_eq_getElem h]
  rfl

/-! ## What is assumed of ZEDA -/

/-- A comparison function in the sense of `qsort`. -/
def Cmp {α : Type*} (cmp : α → α → Int) : Prop := (∀ a b, cmp a b ≤ 0 ∨ cmp b a ≤ 0) ∧ ∀ a b c, cmp a b ≤ 0 → cmp b c ≤ 0 → cmp a c ≤ 0

/-- `zQuickSort` arranges the elements in the order of a comparison function. -/
def SortOk {α : Type*} (sort : (α → α → Int) → List α → List α) : Prop :=
  ∀ cmp, Cmp cmp → ∀ l, (sort cmp l).Perm l ∧ (sort cmp l).Pairwise fun a b => cmp a b ≤ 0

/-- `zQuickSelect` finds the element that is at the position asked for in some sorted arrangement; NULL if there is no such position. -/
def SelectOk {α : Type*} (select : (α → α → Int) → List α → Int → Option α) : Prop :=
  ∀ cmp, Cmp cmp → ∀ l k, ∃ s : List α, s.Perm l ∧ (s.Pairwise fun a b => cmp a b ≤ 0) ∧ select cmp l k = if k < 0 then none else s[k.toNat]?

/-- Merge sort is such a function. -/
theorem sortOk_merge {α : Type*} : SortOk fun (cmp : α → α → Int) l => l.mergeSort fun a b => decide (cmp a b ≤ 0) := by
  intro cmp h l
  refine ⟨List.mergeSort_perm _ _, ?_⟩
  have := List.pairwise_mergeSort (le := fun a b => decide (cmp a b ≤ 0)) (by
    intro a b c h1 h2
    simp only [decide_eq_true_eq] at *
    exact h.2 a b c h1 h2) (by
    intro a b
    simp only [Bool.or_eq_true, decide_eq_true_eq]
    exact h.1 a b) l
  exact this.imp fun h => by simpa using h

theorem selectOk_merge {α : Type*} : SelectOk fun (cmp : α → α → Int) l k => if k < 0 then none else (l.mergeSort fun a b => decide (cmp a b ≤ 0))[k.toNat]? :=
  fun cmp h l k => ⟨_, (sortOk_merge cmp h l).1, (sortOk_merge cmp h l).2, rfl⟩

theorem cmp_iff {α : Type*} (f : α → K) (a b : α) : (if f b < f a then (1 : Int) else if f a < f b then -1 else 0) ≤ 0 ↔ f a ≤ f b := by
  by_cases h : f b < f a
  · rw [if_pos h]; simpa using h
  · rw [if_neg h]
    simp only [not_lt.1 h, iff_true]
    split_ifs <;> omega

theorem sortCmp_iff (a b : K) : sortCmp a b ≤ 0 ↔ a ≤ b := cmp_iff id a b
theorem sortIndexCmp_iff (data : Nat → K) (i j : Nat) : sortIndexCmp data i j ≤ 0 ↔ data i ≤ data j := cmp_iff data i j
theorem sortAbsIndexCmp_iff (data : Nat → K) (i j : Nat) : sortAbsIndexCmp data i j ≤ 0 ↔ |data i| ≤ |data j| := cmp_iff (fun i => |data i|) i j
theorem vecSortCmp_iff (v : Nat → K) (i j : Nat) : vecSortCmp v i j ≤ 0 ↔ v i ≤ v j := by
  unfold vecSortCmp
  have h1 : (0 < v i - v j) = (v j < v i) := by rw [sub_pos]
  have h2 : (v i - v j < 0) = (v i < v j) := by rw [sub_neg]
  simp only [h1, h2]
  exact cmp_iff v i j

theorem cmp_of {α : Type*} (cmp : α → α → Int) (f : α → K) (h : ∀ a b, cmp a b ≤ 0 ↔ f a ≤ f b) : Cmp cmp :=
  ⟨fun a b => by rw [h, h]; exact le_total _ _, fun a b c h1 h2 => by rw [h] at *; exact h1.trans h2⟩

/-! ## C194 -/

/-- C194: the sorted data are the data in ascending order. -/
theorem zDataSort_correct (sort : (K → K → Int) → List K → List K) (hs : SortOk sort) (data : List K) :
    (zDataSort sort data).Perm data ∧ (zDataSort sort data).Pairwise (· ≤ ·) := by
  obtain ⟨h1, h2⟩ := hs sortCmp (cmp_of _ id sortCmp_iff) data
  exact ⟨h1, h2.imp fun h => (sortCmp_iff _ _).1 h⟩

/-- C194: the index comes back as a rearrangement in the order of the samples; an index of another size is refused. -/
theorem zDataSortIndex_correct (sort : (Nat → Nat → Int) → List Nat → List Nat) (hs : SortOk sort) (data : Nat → K) (size : Nat) (index : List Nat) (hi : ∀ i ∈ index, i < size) :
    if size = index.length then ∃ r, zDataSortIndex sort data size index = .ok r ∧ r.Perm index ∧ (r.map data).Pairwise (· ≤ ·)
    else zDataSortIndex sort data size index = .fail := by
  obtain ⟨h1, h2⟩ := hs (sortIndexCmp data) (cmp_of _ data (sortIndexCmp_iff data)) index
  unfold zDataSortIndex
  by_cases h : size = index.length
  · rw [if_pos h, if_neg (not_not.2 h), if_neg (by simpa using hi)]
    exact ⟨_, rfl, h1, List.pairwise_map.2 (h2.imp fun h => (sortIndexCmp_iff data _ _).1 h)⟩
  · rw [if_neg h, if_pos h]

/-- C194: the same by absolute values. -/
theorem zDataSortAbsIndex_correct (sort : (Nat → Nat → Int) → List Nat → List Nat) (hs : SortOk sort) (data : Nat → K) (size : Nat) (index : List Nat) (hi : ∀ i ∈ index, i < size) :
    if size = index.length then ∃ r, zDataSortAbsIndex sort data size index = .ok r ∧ r.Perm index ∧ (r.map fun i => |data i|).Pairwise (· ≤ ·)
    else zDataSortAbsIndex sort data size index = .fail := by
  obtain ⟨h1, h2⟩ := hs (sortAbsIndexCmp data) (cmp_of _ (fun i => |data i|) (sortAbsIndexCmp_iff data)) index
  unfold zDataSortAbsIndex
  by_cases h : size = index.length
  · rw [if_pos h, if_neg (not_not.2 h), if_neg (by simpa using hi)]
    exact ⟨_, rfl, h1, List.pairwise_map.2 (h2.imp fun h => (sortAbsIndexCmp_iff data _ _).1 h)⟩
  · rw [if_neg h, if_pos h]

/-- C194: `zVecSort` on an index of all positions orders the vector. -/
theorem zVecSort_correct (sort : (Nat → Nat → Int) → List Nat → List Nat) (hs : SortOk sort) (v : Nat → K) (size : Nat) (index : List Nat) (hi : index.Perm (List.range size)) :
    ∃ r, zVecSort sort v size index = .ok r ∧ r.Perm (List.range size) ∧ (r.map v).Pairwise (· ≤ ·) ∧ (r.map v).Perm ((List.range size).map v) := by
  obtain ⟨h1, h2⟩ := hs (vecSortCmp v) (cmp_of _ v (vecSortCmp_iff v)) index
  have hl : size = index.length := by rw [hi.length_eq, List.length_range]
  unfold zVecSort
  rw [if_neg (not_not.2 hl), if_neg (by
    simp only [List.any_eq_true, decide_eq_true_eq, not_exists, not_and, not_le]
    intro i hi'
    exact List.mem_range.1 (hi.mem_iff.1 hi'))]
  exact ⟨_, rfl, h1.trans hi, List.pairwise_map.2 (h2.imp fun h => (vecSortCmp_iff v _ _).1 h), (h1.trans hi).map v⟩

/-- `s` holds the first `size` values of `data` in ascending order. -/
def Sorted (data : Nat → K) (size : Nat) (s : List K) : Prop := s.Perm ((List.range size).map data) ∧ s.Pairwise (· ≤ ·)

theorem Sorted.length {data : Nat → K} {size : Nat} {s : List K} (h : Sorted data size s) : s.length = size := by rw [h.1.length_eq]; simp

/-- There is one such arrangement. -/
theorem sorted_exists (data : Nat → K) (size : Nat) : ∃ s, Sorted data size s :=
  ⟨_, List.mergeSort_perm _ (fun a b => decide (a ≤ b)), (List.pairwise_mergeSort (le := fun a b : K => decide (a ≤ b)) (by
    intro a b c h1 h2
    simp only [decide_eq_true_eq] at *
    exact h1.trans h2) (by
    intro a b
    simp only [Bool.or_eq_true, decide_eq_true_eq]
    exact le_total a b) _).imp fun h => by simpa using h⟩

/-- C194: the value selected is the one at the given position of the ascending order; without such a position the answer is not a number. -/
theorem zDataSelect_correct (select : (Nat → Nat → Int) → List Nat → Int → Option Nat) (hs : SelectOk select) (data : Nat → K) (size : Nat) (k : Int) (s : List K) (h : Sorted data size s) :
    zDataSelect select data size k = if k < 0 then none else s[k.toNat]? := by
  unfold zDataSelect
  by_cases h0 : size = 0
  · rw [if_pos h0]
    have : s = [] := by rw [← List.length_eq_zero_iff, h.length, h0]
    subst this
    simp
  · rw [if_neg h0]
    obtain ⟨r, h1, h2, h3⟩ := hs (sortIndexCmp data) (cmp_of _ data (sortIndexCmp_iff data)) (List.range size) k
    have e : r.map data = s := by
      refine List.Perm.eq_of_pairwise (le := (· ≤ ·)) (fun a b _ _ h1 h2 => le_antisymm h1 h2) ?_ h.2 ((h1.map data).trans h.1.symm)
      exact List.pairwise_map.2 (h2.imp fun h => (sortIndexCmp_iff data _ _).1 h)
    rw [h3, ← e]
    split_ifs
    · rfl
    · rw [List.getElem?_map]

/-- C194: the median of an odd number of samples is the one in the middle of the ascending order, of an even number the mean of the two in the middle; no samples have none. -/
theorem zDataMedian_correct (select : (Nat → Nat → Int) → List Nat → Int → Option Nat) (hs : SelectOk select) (data : Nat → K) (size : Nat) (s : List K) (h : Sorted data size s) :
    (size = 0 → zDataMedian select data size = none) ∧
    (0 < size → zDataMedian select data size = some (1 / 2 * (s.getD ((size - 1) / 2) 0 + s.getD (size / 2) 0))) := by
  have hlen := h.length
  unfold zDataMedian
  refine ⟨fun h0 => ?_, fun h0 => ?_⟩
  · subst h0
    simp [zDataSelect]
  · by_cases ho : size % 2 = 1
    · rw [if_pos ho, zDataSelect_correct select hs data size _ s h, if_neg (by omega)]
      have e1 : (((size : Int) - 1) / 2).toNat = (size - 1) / 2 := by omega
      have e2 : size / 2 = (size - 1) / 2 := by omega
      rw [e1, e2, List.getElem?_eq_getElem (by omega), getD_get (by omega)]
      congr 1
      ring
    · rw [if_neg ho, zDataSelect_correct select hs data size _ s h, zDataSelect_correct select hs data size _ s h, if_neg (by omega), if_neg (by omega)]
      have e1 : ((size : Int) / 2 - 1).toNat = (size - 1) / 2 := by omega
      have e2 : ((size : Int) / 2).toNat = size / 2 := by omega
      rw [e1, e2, List.getElem?_eq_getElem (by omega), List.getElem?_eq_getElem (by omega), getD_get (by omega), getD_get (by omega)]
      rfl

theorem sum_eq_sorted {M : Type*} [AddCommMonoid M] (data : Nat → K) (size : Nat) (s : List K) (h : Sorted data size s) (f : K → M) : ∑ i ∈ range size, f (data i) = ∑ k ∈ range size, f (s.getD k 0) := by
  have l : ∀ (g : Nat → M) (n : Nat), ∑ i ∈ range n, g i = ((List.range n).map g).sum := by
    intro g n
    induction n with
    | zero => rfl
    | succ n ih => rw [Finset.sum_range_succ, ih, List.range_succ]; simp
  rw [l, l]
  have e : (List.range size).map (fun k => f (s.getD k 0)) = s.map f := by
    apply List.ext_getElem
    · simp [h.length]
    · intro i h1 h2
      simp only [List.getElem_map, List.getElem_range]
      rw [getD_get (by simpa using h2)]
  rw [e]
  have := ((h.1.map f).sum_eq).symm
  rw [List.map_map] at this
  exact this

/-- The samples of a pair that is symmetric in the order are on both sides of the median. -/
theorem median_between (data : Nat → K) (size : Nat) (s : List K) (h : Sorted data size s) (k : Nat) (hk : k < size) :
    min (s.getD k 0) (s.getD (size - 1 - k) 0) ≤ 1 / 2 * (s.getD ((size - 1) / 2) 0 + s.getD (size / 2) 0) ∧
    1 / 2 * (s.getD ((size - 1) / 2) 0 + s.getD (size / 2) 0) ≤ max (s.getD k 0) (s.getD (size - 1 - k) 0) := by
  have mono : ∀ a b, a ≤ b → b < size → s.getD a 0 ≤ s.getD b 0 := by
    intro a b hab hb
    have hlen := h.length
    rw [getD_get (by omega), getD_get (by omega)]
    rcases Nat.lt_or_ge a b with hlt | hge
    · exact (List.pairwise_iff_getElem.1 h.2) a b (by omega) (by omega) hlt
    · have : a = b := by omega
      subst this
      exact le_rfl
  have main : ∀ a b, a ≤ b → a + b + 1 = size → s.getD a 0 ≤ 1 / 2 * (s.getD ((size - 1) / 2) 0 + s.getD (size / 2) 0) ∧ 1 / 2 * (s.getD ((size - 1) / 2) 0 + s.getD (size / 2) 0) ≤ s.getD b 0 := by
    intro a b hab hs
    have h1 := mono a ((size - 1) / 2) (by omega) (by omega)
    have h2 := mono ((size - 1) / 2) (size / 2) (by omega) (by omega)
    have h3 := mono (size / 2) b (by omega) (by omega)
    constructor <;> linarith
  rcases Nat.le_total k (size - 1 - k) with hle | hle
  · obtain ⟨h1, h2⟩ := main k (size - 1 - k) hle (by omega)
    exact ⟨(min_le_left _ _).trans h1, h2.trans (le_max_right _ _)⟩
  · obtain ⟨h1, h2⟩ := main (size - 1 - k) k hle (by omega)
    exact ⟨(min_le_right _ _).trans h1, h2.trans (le_max_left _ _)⟩

/-- C194: at most half of the samples are below the median and at most half above, and no other number has a smaller sum of distances to the samples. -/
theorem zDataMedian_optimal (select : (Nat → Nat → Int) → List Nat → Int → Option Nat) (hs : SelectOk select) (data : Nat → K) (size : Nat) (h0 : 0 < size) :
    ∃ m, zDataMedian select data size = some m ∧ 2 * ((range size).filter fun i => data i < m).card ≤ size ∧ 2 * ((range size).filter fun i => m < data i).card ≤ size ∧
      ∀ c, ∑ i ∈ range size, |data i - m| ≤ ∑ i ∈ range size, |data i - c| := by
  obtain ⟨s, h⟩ := sorted_exists data size
  refine ⟨_, (zDataMedian_correct select hs data size s h).2 h0, ?_, ?_, fun c => ?_⟩
  all_goals set m := 1 / 2 * (s.getD ((size - 1) / 2) 0 + s.getD (size / 2) 0) with hm
  · have e : ((range size).filter fun i => data i < m).card = ∑ k ∈ range size, if s.getD k 0 < m then 1 else 0 := by
      rw [card_filter]
      exact sum_eq_sorted data size s h (fun x => if x < m then (1 : Nat) else 0)
    have e2 := Finset.sum_range_reflect (fun k => if s.getD k 0 < m then (1 : Nat) else 0) size
    have : ∑ k ∈ range size, (if s.getD (size - 1 - k) 0 < m then (1 : Nat) else 0) + ∑ k ∈ range size, (if s.getD k 0 < m then (1 : Nat) else 0) ≤ ∑ k ∈ range size, 1 := by
      rw [← Finset.sum_add_distrib]
      refine Finset.sum_le_sum fun k hk => ?_
      have hb := (median_between data size s h k (mem_range.1 hk)).2
      rw [← hm] at hb
      rcases le_max_iff.1 hb with h1 | h1
      · rw [if_neg (not_lt.2 h1)]; split_ifs <;> omega
      · rw [if_neg (not_lt.2 h1)]; split_ifs <;> omega
    rw [e2] at this
    rw [e]
    simp only [sum_const, card_range, smul_eq_mul, mul_one] at this
    omega
  · have e : ((range size).filter fun i => m < data i).card = ∑ k ∈ range size, if m < s.getD k 0 then 1 else 0 := by
      rw [card_filter]
      exact sum_eq_sorted data size s h (fun x => if m < x then (1 : Nat) else 0)
    have e2 := Finset.sum_range_reflect (fun k => if m < s.getD k 0 then (1 : Nat) else 0) size
    have : ∑ k ∈ range size, (if m < s.getD (size - 1 - k) 0 then (1 : Nat) else 0) + ∑ k ∈ range size, (if m < s.getD k 0 then (1 : Nat) else 0) ≤ ∑ k ∈ range size, 1 := by
      rw [← Finset.sum_add_distrib]
      refine Finset.sum_le_sum fun k hk => ?_
      have hb := (median_between data size s h k (mem_range.1 hk)).1
      rw [← hm] at hb
      rcases min_le_iff.1 hb with h1 | h1
      · rw [if_neg (not_lt.2 h1)]; split_ifs <;> omega
      · rw [if_neg (not_lt.2 h1)]; split_ifs <;> omega
    rw [e2] at this
    rw [e]
    simp only [sum_const, card_range, smul_eq_mul, mul_one] at this
    omega
  · rw [sum_eq_sorted data size s h (fun x => |x - m|), sum_eq_sorted data size s h (fun x => |x - c|)]
    have r1 := Finset.sum_range_reflect (fun k => |s.getD k 0 - m|) size
    have r2 := Finset.sum_range_reflect (fun k => |s.getD k 0 - c|) size
    have key : ∑ k ∈ range size, (|s.getD k 0 - m| + |s.getD (size - 1 - k) 0 - m|) ≤ ∑ k ∈ range size, (|s.getD k 0 - c| + |s.getD (size - 1 - k) 0 - c|) := by
      refine Finset.sum_le_sum fun k hk => ?_
      obtain ⟨b1, b2⟩ := median_between data size s h k (mem_range.1 hk)
      rw [← hm] at b1 b2
      have t : ∀ a b : K, a ≤ m → m ≤ b → |a - m| + |b - m| ≤ |a - c| + |b - c| := by
        intro a b ha hb
        rw [abs_of_nonpos (by linarith), abs_of_nonneg (by linarith : (0 : K) ≤ b - m)]
        have := neg_abs_le (a - c)
        have := le_abs_self (b - c)
        linarith
      rcases min_le_iff.1 b1 with c1 | c1 <;> rcases le_max_iff.1 b2 with c2 | c2
      · rcases le_total (s.getD (size - 1 - k) 0) m with d | d
        · have : s.getD k 0 = m := le_antisymm c1 c2
          have := t (s.getD (size - 1 - k) 0) (s.getD k 0) d c2
          linarith
        · exact t _ _ c1 d
      · exact t _ _ c1 c2
      · have := t (s.getD (size - 1 - k) 0) (s.getD k 0) c1 c2
        linarith
      · rcases le_total (s.getD k 0) m with d | d
        · exact t _ _ d c2
        · have := t (s.getD (size - 1 - k) 0) (s.getD k 0) c1 d
          linarith
    rw [Finset.sum_add_distrib, Finset.sum_add_distrib, r1, r2] at key
    linarith

example : ∃ m, zDataMedian (fun cmp l k => if k < 0 then none else (l.mergeSort fun a b => decide (cmp a b ≤ 0))[k.toNat]?) (fun i => [5, 1, 4, 2].getD i (0 : ℚ)) 4 = some m ∧
    2 * ((range 4).filter fun i => [5, 1, 4, 2].getD i (0 : ℚ) < m).card ≤ 4 ∧ 2 * ((range 4).filter fun i => m < [5, 1, 4, 2].getD i (0 : ℚ)).card ≤ 4 ∧
      ∀ c : ℚ, ∑ i ∈ range 4, |[5, 1, 4, 2].getD i (0 : ℚ) - m| ≤ ∑ i ∈ range 4, |[5, 1, 4, 2].getD i (0 : ℚ) - c| :=
  zDataMedian_optimal _ selectOk_merge (fun i => [5, 1, 4, 2].getD i (0 : ℚ)) 4 (by norm_num)
example : Sorted (fun i => [5, 1, 4, 2].getD i (0 : ℚ)) 4 [1, 2, 4, 5] := ⟨by decide +kernel, by decide +kernel⟩

/-! ## C195 -/

theorem poly_zero_of_roots (w dim : Nat) (hd : dim < w) (hw : 2 ≤ w) (P : K[X]) (hP : P.natDegree ≤ dim) (h : ∀ j, j < w → P.eval ((j : K) / ((w : K) - 1)) = 0) : P = 0 := by
  have hw1 : (w : K) - 1 ≠ 0 := by
    have : (2 : K) ≤ w := by exact_mod_cast hw
    intro e
    linarith
  refine Polynomial.eq_zero_of_natDegree_lt_card_of_eval_eq_zero P (f := fun j : Fin w => ((j : Nat) : K) / ((w : K) - 1)) ?_ (fun j => h j j.2) (by simpa using by omega)
  intro a b hab
  have hab' : ((a : Nat) : K) = ((b : Nat) : K) := (div_left_inj' hw1).1 hab
  exact Fin.ext (by exact_mod_cast hab')

theorem natDegree_poly_le (N : Nat) (c : Nat → K) : (Pex.poly (N + 1) c).natDegree ≤ N := by
  rw [natDegree_le_iff_coeff_eq_zero]
  intro k hk
  rw [Pex.poly_coeff, if_neg (by omega)]

/-- The fit of samples of a polynomial of at most the given degree is that polynomial. -/
theorem lsmFit_exact (w dim : Nat) (hw : 2 ≤ w) (hd : dim < w) (u : Nat → K) (Q : K[X]) (hQ : Q.natDegree ≤ dim) (hu : ∀ j, j < w → u j = Q.eval ((j : K) / ((w : K) - 1))) :
    ∃ c, lsmFit w dim u = some c ∧ Pex.poly (dim + 1) c = Q := by
  have hval : ∀ (c : Nat → K) (t : K), IP.pexIPVal (dim + 1) c ((w : K) - 1) t = (Pex.poly (dim + 1) c).eval (t / ((w : K) - 1)) := by
    intro c t
    unfold IP.pexIPVal
    rw [Pex.zPexVal_correct _ (by simp)]
    rfl
  have hcoef : Pex.poly (dim + 1) Q.coeff = Q := by
    ext k
    rw [Pex.poly_coeff]
    split_ifs with h
    · rfl
    · exact (coeff_eq_zero_of_natDegree_lt (by omega)).symm
  obtain ⟨hA, -⟩ := IP.pexLSM_spec w (dim + 1) ((w : K) - 1) (fun i => (i : K)) u
  unfold lsmFit
  rcases IP.pexLSM_optimal w (dim + 1) (by omega) ((w : K) - 1) (fun i => (i : K)) u (fun _ => 0) with ⟨c, e, ho⟩ | ⟨-, z, ⟨j, hj, hz⟩, hAz⟩
  · rw [e]
    refine ⟨c, rfl, ?_⟩
    have h0 := ho Q.coeff
    have e0 : ∑ i ∈ range w, (IP.pexIPVal (dim + 1) Q.coeff ((w : K) - 1) (i : K) - u i) ^ 2 = 0 := by
      refine sum_eq_zero fun i hi => ?_
      rw [hval, hcoef, hu i (mem_range.1 hi)]
      ring
    rw [e0] at h0
    have hz := (sum_eq_zero_iff_of_nonneg (fun (i : Nat) _ => sq_nonneg (IP.pexIPVal (dim + 1) c ((w : K) - 1) (i : K) - u i))).1 (le_antisymm h0 (sum_nonneg fun i _ => sq_nonneg _))
    have := poly_zero_of_roots w dim hd hw (Pex.poly (dim + 1) c - Q) ((natDegree_sub_le _ _).trans (max_le (natDegree_poly_le dim c) hQ)) fun j hj => by
      have := hz j (mem_range.2 hj)
      rw [sq_eq_zero_iff, hval, hu j hj] at this
      rw [eval_sub]
      exact this
    exact sub_eq_zero.1 this
  · exfalso
    have hs : ∑ i ∈ range w, ((Pex.poly (dim + 1) z).eval ((i : K) / ((w : K) - 1))) ^ 2 = 0 := by
      have e1 : ∑ a ∈ range (dim + 1), z a * ∑ b ∈ range (dim + 1), (IP.pexLSM w (dim + 1) ((w : K) - 1) (fun i => (i : K)) u).1 a b * z b = 0 :=
        sum_eq_zero fun a ha => by rw [hAz a (mem_range.1 ha), mul_zero]
      rw [← e1]
      have e2 : ∀ a ∈ range (dim + 1), z a * ∑ b ∈ range (dim + 1), (IP.pexLSM w (dim + 1) ((w : K) - 1) (fun i => (i : K)) u).1 a b * z b =
          ∑ i ∈ range w, z a * ((i : K) / ((w : K) - 1)) ^ a * (Pex.poly (dim + 1) z).eval ((i : K) / ((w : K) - 1)) := by
        intro a ha
        rw [sum_congr rfl fun b hb => by rw [hA a b (mem_range.1 ha) (mem_range.1 hb), sum_mul]]
        rw [sum_comm, mul_sum]
        refine sum_congr rfl fun i _ => ?_
        rw [Pex.eval_poly, mul_sum, mul_sum]
        refine sum_congr rfl fun b _ => ?_
        rw [pow_add]
        ring
      rw [sum_congr rfl e2, sum_comm]
      refine sum_congr rfl fun i _ => ?_
      rw [← sum_mul, ← Pex.eval_poly, sq]
    have hr := (sum_eq_zero_iff_of_nonneg (fun (i : Nat) _ => sq_nonneg ((Pex.poly (dim + 1) z).eval ((i : K) / ((w : K) - 1))))).1 hs
    have := poly_zero_of_roots w dim hd hw (Pex.poly (dim + 1) z) (natDegree_poly_le dim z) fun j hj => by
      have := hr j (mem_range.2 hj)
      rwa [sq_eq_zero_iff] at this
    have hc := Pex.poly_coeff (dim + 1) z j
    rw [this, coeff_zero, if_pos hj] at hc
    exact hz hc.symm

theorem lsmFit_some (w dim : Nat) (u : Nat → K) : ∃ p, lsmFit w dim u = some p := by
  unfold lsmFit
  split <;> exact ⟨_, rfl⟩

/-- The window of a polynomial, in the variable of the fit. -/
theorem window_poly (w dim start : Nat) (hw : 2 ≤ w) (q : K[X]) (hq : q.natDegree ≤ dim) :
    (q.comp (C (start : K) + C ((w : K) - 1) * X)).natDegree ≤ dim ∧
    (∀ t : K, (q.comp (C (start : K) + C ((w : K) - 1) * X)).eval (t / ((w : K) - 1)) = q.eval (start + t)) ∧
    ∀ t : K, (derivative (q.comp (C (start : K) + C ((w : K) - 1) * X))).eval (t / ((w : K) - 1)) / ((w : K) - 1) = (derivative q).eval (start + t) := by
  have hw1 : (w : K) - 1 ≠ 0 := by
    have : (2 : K) ≤ w := by exact_mod_cast hw
    intro e
    linarith
  refine ⟨?_, fun t => ?_, fun t => ?_⟩
  · refine natDegree_comp_le.trans ?_
    have : (C (start : K) + C ((w : K) - 1) * X).natDegree ≤ 1 := by
      refine (natDegree_add_le _ _).trans (max_le (by simp) (by exact (natDegree_C_mul_le _ _).trans natDegree_X_le))
    calc q.natDegree * _ ≤ dim * 1 := Nat.mul_le_mul hq this
      _ = dim := by ring
  · rw [eval_comp]
    simp only [eval_add, eval_C, eval_mul, eval_X]
    rw [mul_div_cancel₀ _ hw1]
  · rw [derivative_comp]
    simp only [derivative_add, derivative_C, derivative_mul, derivative_X, zero_mul, zero_add, mul_one, eval_mul, eval_C, eval_comp, eval_add, eval_X]
    rw [mul_div_cancel₀ _ hw1, mul_div_cancel_left₀ _ hw1]

theorem smooth_window (src : Nat → K) (w dim start size : Nat) (hw : 2 ≤ w) (hd : dim < w) (q : K[X]) (hq : q.natDegree ≤ dim) (hsrc : ∀ i, i < size → src i = q.eval (i : K)) (hst : start + w ≤ size)
    (p : Nat → K) (hp : lsmFit w dim (fun j => src (start + j)) = some p) : Pex.poly (dim + 1) p = q.comp (C (start : K) + C ((w : K) - 1) * X) := by
  obtain ⟨h1, h2, -⟩ := window_poly w dim start hw q hq
  obtain ⟨c, e, hc⟩ := lsmFit_exact w dim hw hd (fun j => src (start + j)) _ h1 (fun j hj => by
    rw [h2, hsrc (start + j) (by omega)]
    push_cast
    rfl)
  rw [e] at hp
  cases hp
  exact hc

/-- C195, windows of even length greater than the degree: samples of a polynomial of at most the degree of the fit come out of the smoothing as they were, up to both ends, and the smoothed velocities are
those of the polynomial. -/
theorem zDataSmoothSG_exact_partial (src : Nat → K) (size wh dim : Nat) (hwh : 0 < wh) (hs : 2 * wh ≤ size) (hd : dim < 2 * wh) (q : K[X]) (hq : q.natDegree ≤ dim)
    (hsrc : ∀ i, i < size → src i = q.eval (i : K)) (dest : Nat → K) :
    (∃ d, zDataSmoothSG src size (2 * wh) dim dest = .ok d ∧ ∀ i, i < size → d i = src i) ∧
    ∃ d, zDataSmoothVelSG src size (2 * wh) dim dest = .ok d ∧ ∀ i, i < size → d i = (derivative q).eval (i : K) := by
  have hz : ∀ (i start : Nat), ((start : K) + (((i : Int) - (start : Int) : Int) : K)) = (i : K) := by
    intro i start
    push_cast
    ring
  constructor
  · obtain ⟨d, e, h⟩ := Stat.smoothSG_even_partial (lsmFit (2 * wh) dim) (fun c i => IP.pexIPVal (dim + 1) c (((2 * wh : Nat) : K) - 1) (i : K)) src size wh hwh hs (lsmFit_some _ _) dest
    refine ⟨d, by unfold zDataSmoothSG; rw [if_neg (by omega)]; exact e, fun i hi => ?_⟩
    obtain ⟨start, p, h1, h2, h3, hp, hdi⟩ := h i hi
    have hpoly := smooth_window src (2 * wh) dim start size (by omega) hd q hq hsrc h3 p hp
    rw [hdi, hsrc i hi]
    unfold IP.pexIPVal
    rw [Pex.zPexVal_correct _ (by simp)]
    show (Pex.poly (dim + 1) p).eval _ = _
    rw [hpoly, (window_poly (2 * wh) dim start (by omega) q hq).2.1, hz]
  · obtain ⟨d, e, h⟩ := Stat.smoothSG_even_partial (lsmFit (2 * wh) dim) (fun c i => IP.pexIPVel (dim + 1) c (((2 * wh : Nat) : K) - 1) (i : K)) src size wh hwh hs (lsmFit_some _ _) dest
    refine ⟨d, by unfold zDataSmoothVelSG; rw [if_neg (by omega)]; exact e, fun i hi => ?_⟩
    obtain ⟨start, p, h1, h2, h3, hp, hdi⟩ := h i hi
    have hpoly := smooth_window src (2 * wh) dim start size (by omega) hd q hq hsrc h3 p hp
    rw [hdi]
    unfold IP.pexIPVel
    rw [Pex.zPexDifVal_correct _ (by simp)]
    show (derivative (Pex.poly (dim + 1) p)).eval _ / _ = _
    rw [hpoly, (window_poly (2 * wh) dim start (by omega) q hq).2.2, hz]

/-- C195 is violated by a degree that is not below the length of the window: the equations are singular, this is not noticed, and zeros come out with a report of success. -/
theorem zDataSmoothSG_degree_violated : ∃ d, zDataSmoothSG (fun i => (i : ℚ) + 1) 4 2 2 (fun _ => 0) = .ok d ∧ ∀ i, i < 4 → d i = 0 := by
  have h : (zDataSmoothSG (fun i => (i : ℚ) + 1) 4 2 2 (fun _ => 0)).bind (fun d => .ok [d 0, d 1, d 2, d 3]) = .ok [0, 0, 0, 0] := by decide +kernel
  cases e : zDataSmoothSG (fun i => (i : ℚ) + 1) 4 2 2 (fun _ => 0) with
  | ok d =>
    rw [e] at h
    simp only [Res.bind, Res.ok.injEq, List.cons.injEq] at h
    obtain ⟨h0, h1, h2, h3, -⟩ := h
    clear e
    refine ⟨d, rfl, fun i hi => ?_⟩
    interval_cases i
    · exact h0
    · exact h1
    · exact h2
    · exact h3
  | fail => rw [e] at h; cases h
  | ub => rw [e] at h; cases h

/-- C195 is violated by a window of one sample: a pointer that was never set is freed. -/
theorem zDataSmoothSG_one_violated (src : Nat → K) (size dim : Nat) (dest : Nat → K) : zDataSmoothSG src size 1 dim dest = .ub := rfl

/-- C195 is violated by every window of odd length: a sample behind the data is read. -/
theorem zDataSmoothSG_odd_violated (src : Nat → K) (size wh dim : Nat) (hs : 2 * wh + 1 ≤ size) (dest : Nat → K) : zDataSmoothSG src size (2 * wh + 1) dim dest = .ub := by
  unfold zDataSmoothSG
  split_ifs
  · rfl
  · exact Stat.smoothSG_odd_violated _ _ src size wh hs (lsmFit_some _ _) dest

/-! ## C196 -/

/-- C196: the samples reported are, the last first, those inside the data where the smoothed slope changes from positive to negative. -/
theorem peaksOf_spec (g : Nat → K) (size : Nat) : peaksOf g size = (((List.range (size - 1)).filter fun i => decide (1 ≤ i ∧ 0 < g (i - 1) ∧ g i < 0))).reverse := by
  unfold peaksOf
  have main : ∀ n : Nat, forUp 1 (max 1 n) (fun i l => if 0 < g (i - 1) ∧ g i < 0 then i :: l else l) ([] : List Nat) =
      ((List.range n).filter fun i => decide (1 ≤ i ∧ 0 < g (i - 1) ∧ g i < 0)).reverse := by
    intro n
    induction n with
    | zero => rfl
    | succ n ih =>
      by_cases h : n = 0
      · subst h; rfl
      · have e : max 1 (n + 1) = max 1 n + 1 := by omega
        have e1 : max 1 n = n := by omega
        rw [e, forUp_succ (by omega), ih, e1, List.range_succ, List.filter_append, List.reverse_append]
        have hn : 1 ≤ n := by omega
        by_cases hc : 0 < g (n - 1) ∧ g n < 0
        · rw [if_pos hc]; simp [hn, hc]
        · rw [if_neg hc]; simp [hn, hc]
  rw [← main]
  by_cases h : size - 1 < 1
  · have e : max 1 (size - 1) = 1 := by omega
    rw [e, forUp_of_le (by omega), forUp_of_le (by omega)]
  · have e : max 1 (size - 1) = size - 1 := by omega
    rw [e]

/-- C196, windows of even length: the peaks are computed from the slopes that the smoothing delivers. -/
theorem zDataPeakSG_partial (src : Nat → K) (size wh dim : Nat) (hwh : 0 < wh) (hs : 2 * wh ≤ size) :
    ∃ g l, zDataSmoothVelSG src size (2 * wh) dim (fun _ => 0) = .ok g ∧ zDataPeakSG src size (2 * wh) dim = .ok l ∧
      (∀ i, i ∈ l ↔ 1 ≤ i ∧ i + 1 < size ∧ 0 < g (i - 1) ∧ g i < 0) ∧ l.Pairwise (· > ·) := by
  obtain ⟨g, e, -⟩ := Stat.smoothSG_even_partial (lsmFit (2 * wh) dim) (fun c i => IP.pexIPVel (dim + 1) c (((2 * wh : Nat) : K) - 1) (i : K)) src size wh hwh hs (lsmFit_some _ _) (fun _ => 0)
  have e' : zDataSmoothVelSG src size (2 * wh) dim (fun _ => 0) = .ok g := by
    unfold zDataSmoothVelSG; rw [if_neg (by omega)]; exact e
  refine ⟨g, peaksOf g size, e', ?_, fun i => ?_, ?_⟩
  · unfold zDataPeakSG
    rw [if_neg (by omega), e']
  · rw [peaksOf_spec, List.mem_reverse, List.mem_filter, List.mem_range]
    simp only [decide_eq_true_eq]
    constructor
    · rintro ⟨h1, h2, h3, h4⟩; exact ⟨h2, by omega, h3, h4⟩
    · rintro ⟨h1, h2, h3, h4⟩; exact ⟨by omega, h1, h3, h4⟩
  · rw [peaksOf_spec, List.pairwise_reverse]
    exact List.Pairwise.filter _ List.pairwise_lt_range

/-- C196: the samples of a downward parabola with its vertex between two samples inside the data: exactly the sample behind the vertex is reported. -/
theorem zDataPeakSG_parabola_partial (src : Nat → K) (size wh : Nat) (hwh : 2 ≤ wh) (hs : 2 * wh ≤ size) (a v h : K) (ha : 0 < a) (hsrc : ∀ i, i < size → src i = h - a * ((i : K) - v) ^ 2)
    (m : Nat) (hm : 1 ≤ m) (hm2 : m + 1 < size) (h1 : ((m : K) - 1) < v) (h2 : v < (m : K)) : zDataPeakSG src size (2 * wh) 2 = .ok [m] := by
  obtain ⟨g, l, e, el, hl, hp⟩ := zDataPeakSG_partial src size wh 2 (by omega) hs
  have hq : (C h - C a * (X - C v) ^ 2 : K[X]).natDegree ≤ 2 := by
    refine (natDegree_sub_le _ _).trans (max_le (by simp) ?_)
    refine natDegree_mul_le.trans ?_
    rw [natDegree_C, zero_add]
    refine natDegree_pow_le.trans ?_
    rw [natDegree_X_sub_C]
  obtain ⟨-, g', e', hg⟩ := zDataSmoothSG_exact_partial src size wh 2 (by omega) hs (by omega) (C h - C a * (X - C v) ^ 2) hq (fun i hi => by
    rw [hsrc i hi]; simp) (fun _ => 0)
  rw [e] at e'
  cases e'
  have hg2 : ∀ i, i < size → g i = -(2 * a * ((i : K) - v)) := by
    intro i hi
    rw [hg i hi]
    simp only [derivative_sub, derivative_C, derivative_mul, derivative_pow, derivative_X, eval_sub, eval_mul, eval_add, eval_C, eval_X, eval_zero, eval_pow, zero_mul, zero_add, sub_zero, mul_one, eval_natCast]
    simp
    ring
  rw [el]
  congr 1
  have hmem : ∀ i, i ∈ l ↔ i = m := by
    intro i
    rw [hl]
    constructor
    · rintro ⟨i1, i2, i3, i4⟩
      rw [hg2 _ (by omega)] at i3 i4
      have c : ((i - 1 : Nat) : K) = (i : K) - 1 := by rw [Nat.cast_sub i1]; simp
      rw [c] at i3
      have i3' : (i : K) - 1 < v := by nlinarith
      have i4' : v < (i : K) := by nlinarith
      have a1 : (i : K) < (m : K) + 1 := by linarith
      have a2 : (m : K) < (i : K) + 1 := by linarith
      have a1' : i < m + 1 := by exact_mod_cast a1
      have a2' : m < i + 1 := by exact_mod_cast a2
      omega
    · rintro rfl
      have c : ((i - 1 : Nat) : K) = (i : K) - 1 := by rw [Nat.cast_sub hm]; simp
      refine ⟨hm, hm2, ?_, ?_⟩
      · rw [hg2 _ (by omega), c]; nlinarith
      · rw [hg2 _ (by omega)]; nlinarith
  match l, hmem, hp with
  | [], hmem, _ => exact absurd ((hmem m).2 rfl) (by simp)
  | [x], hmem, _ => rw [(hmem x).1 (by simp)]
  | x :: y :: t, hmem, hp =>
    have ex := (hmem x).1 (by simp)
    have ey := (hmem y).1 (by simp)
    have := (List.pairwise_cons.1 hp).1 y (by simp)
    omega

/-- C196 is violated by a parabola whose vertex is a sample: the slope there is zero, and no peak is reported. -/
theorem zDataPeakSG_sample_violated (src : Nat → K) (size wh : Nat) (hwh : 2 ≤ wh) (hs : 2 * wh ≤ size) (a h : K) (ha : 0 < a) (m : Nat) (hsrc : ∀ i, i < size → src i = h - a * ((i : K) - m) ^ 2) :
    zDataPeakSG src size (2 * wh) 2 = .ok [] := by
  obtain ⟨g, l, e, el, hl, hp⟩ := zDataPeakSG_partial src size wh 2 (by omega) hs
  have hq : (C h - C a * (X - C (m : K)) ^ 2 : K[X]).natDegree ≤ 2 := by
    refine (natDegree_sub_le _ _).trans (max_le (by simp) ?_)
    refine natDegree_mul_le.trans ?_
    rw [natDegree_C, zero_add]
    refine natDegree_pow_le.trans ?_
    rw [natDegree_X_sub_C]
  obtain ⟨-, g', e', hg⟩ := zDataSmoothSG_exact_partial src size wh 2 (by omega) hs (by omega) (C h - C a * (X - C (m : K)) ^ 2) hq (fun i hi => by
    rw [hsrc i hi]; simp) (fun _ => 0)
  rw [e] at e'
  cases e'
  have hg2 : ∀ i, i < size → g i = -(2 * a * ((i : K) - m)) := by
    intro i hi
    rw [hg i hi]
    simp only [derivative_sub, derivative_C, derivative_mul, derivative_pow, derivative_X, eval_sub, eval_mul, eval_add, eval_C, eval_X, eval_zero, eval_pow, zero_mul, zero_add, sub_zero, mul_one, eval_natCast]
    simp
    ring
  rw [el]
  congr 1
  refine List.eq_nil_iff_forall_not_mem.2 fun i hi => ?_
  obtain ⟨i1, i2, i3, i4⟩ := (hl i).1 hi
  rw [hg2 _ (by omega)] at i3 i4
  have c : ((i - 1 : Nat) : K) = (i : K) - 1 := by rw [Nat.cast_sub i1]; simp
  rw [c] at i3
  have i3' : (i : K) - 1 < m := by nlinarith
  have i4' : (m : K) < (i : K) := by nlinarith
  have a1 : (i : K) < (m : K) + 1 := by linarith
  have a1' : i < m + 1 := by exact_mod_cast a1
  have a2' : m < i := by exact_mod_cast i4'
  omega

/-- Where the smoothing fails, a list that was never initialised is destroyed. -/
theorem zDataPeakSG_fail_violated (src : Nat → K) (size dim : Nat) (h : 0 < size) : zDataPeakSG src size 0 dim = .ub := by
  unfold zDataPeakSG zDataSmoothVelSG Stat.smoothSG
  rw [if_neg (by omega), if_neg (by omega), if_pos rfl]

example : zDataPeakSG (fun i => 10 - ((i : ℚ) - 7 / 2) ^ 2) 8 4 2 = .ok [4] :=
  zDataPeakSG_parabola_partial (fun i => 10 - ((i : ℚ) - 7 / 2) ^ 2) 8 2 (by omega) (by omega) 1 (7 / 2) 10 (by norm_num) (fun i _ => by ring) 4 (by omega) (by omega) (by norm_num) (by norm_num)
example : zDataPeakSG (fun i => 10 - ((i : ℚ) - 4) ^ 2) 8 4 2 = .ok [] :=
  zDataPeakSG_sample_violated (fun i => 10 - ((i : ℚ) - 4) ^ 2) 8 2 (by omega) (by omega) 1 10 (by norm_num) 4 (fun i _ => by push_cast; ring)

end
end Zm.Data
