import Verif.Props.LE

/-! # C78: sweep-out (one Gauss–Jordan step) -/

set_option linter.unusedSectionVars false

namespace Zm.LE
open Zm Misc Finset
variable {K : Type*} [Field K] [LinearOrder K] [IsStrictOrderedRing K] {V : Type*} [AddCommGroup V] [Module K V]

/-- What a sweep-out with non-zero pivot does to each row. -/
theorem sweepOut_rows (tol : K) (rows cols : Nat) (m : Nat → Nat → K) (v : Nat → V) (r c : Nat) (hr : r < rows) (hc : c < cols)
    (hv : m r c ≠ 0) : ∃ m' v', sweepOut tol rows cols m v r c = ((m', v'), m r c) ∧
    (∀ j, j < cols → m' r j = if j = c then 1 else m r j * (1 / m r c)) ∧ v' r = (1 / m r c) • v r ∧
    (∀ i, i < rows → i ≠ r → (∀ j, j < cols → m' i j = if j = c then 0 else if |m i c| ≤ tol then m i j else m i j - m' r j * m i c) ∧
      v' i = if |m i c| ≤ tol then v i else v i - m i c • v' r) := by
  unfold sweepOut
  simp only [hv, if_false]
  obtain ⟨m1, hm1⟩ : ∃ m1, m1 = forUp 0 cols (fun j m' => if j ≠ c then set2 m' r j (m' r j * (1 / m r c)) else set2 m' r c 1) m := ⟨_, rfl⟩
  have e1 : m1 = fun i j => if i = r ∧ 0 ≤ j ∧ j < cols then (if j ≠ c then m r j * (1 / m r c) else 1) else m i j := by
    rw [hm1]
    have : (fun j (m' : Nat → Nat → K) => if j ≠ c then set2 m' r j (m' r j * (1 / m r c)) else set2 m' r c 1) =
        fun j m' => set2 m' r j (if j ≠ c then m' r j * (1 / m r c) else 1) := by
      funext j m'
      by_cases h : j = c
      · subst h; simp
      · simp [h]
    rw [this]
    refine forUp_row r (fun j m' => if j ≠ c then m' r j * (1 / m r c) else 1) m _ ?_
    intro k t h1 h2 h3
    rw [h3 r k (by omega)]
  obtain ⟨v1, hv1⟩ : ∃ v1, v1 = set1 v r ((1 / m r c) • v r) := ⟨_, rfl⟩
  rw [← hm1, ← hv1]
  have r1 : ∀ j, j < cols → m1 r j = if j = c then 1 else m r j * (1 / m r c) := by
    intro j hj
    rw [e1]; beta_reduce
    rw [if_pos ⟨rfl, Nat.zero_le _, hj⟩]
    by_cases h : j = c <;> simp [h]
  have r2 : ∀ i, i ≠ r → ∀ j, m1 i j = m i j := by
    intro i hi j
    rw [e1]; beta_reduce
    rw [if_neg (by tauto)]
  have loop := forUp_inv (lo := 0) (hi := rows) (fun i (st : (Nat → Nat → K) × (Nat → V)) =>
      if i = r then st
      else
        (set2 (if !zIsTol (st.1 i c) tol then
            (forUp 0 cols (fun j m => if j ≠ c then set2 m i j (m i j - m r j * st.1 i c) else m) st.1,
             set1 st.2 i (st.2 i - st.1 i c • st.2 r))
          else st).1 i c 0, (if !zIsTol (st.1 i c) tol then
            (forUp 0 cols (fun j m => if j ≠ c then set2 m i j (m i j - m r j * st.1 i c) else m) st.1,
             set1 st.2 i (st.2 i - st.1 i c • st.2 r))
          else st).2)) (m1, v1)
    (fun k s => (∀ j, j < cols → s.1 r j = m1 r j) ∧ s.2 r = v1 r ∧
      (∀ i, i < k → i ≠ r → (∀ j, j < cols → s.1 i j = if j = c then 0 else if |m i c| ≤ tol then m i j else m i j - m1 r j * m i c) ∧
        s.2 i = if |m i c| ≤ tol then v i else v i - m i c • v1 r) ∧
      (∀ i, k ≤ i → i ≠ r → (∀ j, s.1 i j = m i j) ∧ s.2 i = v i)) (Nat.zero_le _)
    ⟨fun _ _ => rfl, rfl, by intro i hi; omega, fun i _ hi => ⟨r2 i hi, by simp only; rw [hv1, set1_ne _ _ hi]⟩⟩
    (by
      rintro k ⟨a, b⟩ - hk ⟨g1, g2, g3, g4⟩
      simp only at g1 g2 g3 g4
      by_cases hkr : k = r
      · rw [if_pos hkr]
        refine ⟨g1, g2, fun i hi hir => g3 i (by omega) hir, fun i hi hir => g4 i (by omega) hir⟩
      · rw [if_neg hkr]
        obtain ⟨q1, q2⟩ := g4 k (le_refl _) hkr
        by_cases ht : |m k c| ≤ tol
        · have : (!zIsTol (a k c) tol) = false := by simp [zIsTol, q1, ht]
          simp only [this, Bool.false_eq_true, if_false]
          refine ⟨fun j hj => ?_, g2, ?_, ?_⟩
          · rw [set2_ne_row _ _ (fun h => hkr h.symm)]; exact g1 j hj
          · intro i hi hir
            by_cases hik : i = k
            · subst hik
              refine ⟨fun j hj => ?_, by rw [if_pos ht, q2]⟩
              by_cases hjc : j = c
              · subst hjc; rw [set2_same, if_pos rfl]
              · rw [set2_ne_col _ _ hjc, if_neg hjc, if_pos ht, q1]
            · refine ⟨fun j hj => ?_, (g3 i (by omega) hir).2⟩
              rw [set2_ne_row _ _ hik]; exact (g3 i (by omega) hir).1 j hj
          · intro i hi hir
            refine ⟨fun j => ?_, (g4 i (by omega) hir).2⟩
            rw [set2_ne_row _ _ (by omega)]; exact (g4 i (by omega) hir).1 j
        · have : (!zIsTol (a k c) tol) = true := by simp [zIsTol, q1, ht]
          simp only [this, if_true]
          have hrow : forUp 0 cols (fun j m' => if j ≠ c then set2 m' k j (m' k j - m' r j * a k c) else m') a = fun x y =>
              if x = k ∧ 0 ≤ y ∧ y < cols then (if y ≠ c then m k y - m1 r y * m k c else m k y) else a x y := by
            have e : forUp 0 cols (fun j m' => if j ≠ c then set2 m' k j (m' k j - m' r j * a k c) else m') a =
                forUp 0 cols (fun j m' => set2 m' k j (if j ≠ c then m' k j - m' r j * a k c else m' k j)) a := by
              refine forUp_congr _ _ _ ?_
              intro j t _ _
              by_cases h : j = c
              · subst h
                simp only [ne_eq, not_true_eq_false, if_false]
                funext x y
                unfold set2; split
                · rename_i h; rw [h.1, h.2]
                · rfl
              · simp [h]
            rw [e]
            refine forUp_row k (fun j m' => if j ≠ c then m' k j - m' r j * a k c else m' k j) a _ ?_
            intro j t h1 h2 h3
            rw [h3 k j (by omega), h3 r j (by intro h; exact hkr h.1.symm), q1, q1, g1 j h2]
          rw [hrow]
          refine ⟨fun j hj => ?_, by rw [set1_ne _ _ (fun h => hkr h.symm)]; exact g2, ?_, ?_⟩
          · rw [set2_ne_row _ _ (fun h => hkr h.symm), if_neg (fun h => hkr h.1.symm)]; exact g1 j hj
          · intro i hi hir
            by_cases hik : i = k
            · subst hik
              refine ⟨fun j hj => ?_, by rw [if_neg ht, set1_same, q1, q2, g2]⟩
              by_cases hjc : j = c
              · subst hjc; rw [set2_same, if_pos rfl]
              · rw [set2_ne_col _ _ hjc, if_neg hjc, if_neg ht, if_pos ⟨rfl, Nat.zero_le _, hj⟩, if_pos hjc]
            · refine ⟨fun j hj => ?_, by rw [set1_ne _ _ hik]; exact (g3 i (by omega) hir).2⟩
              rw [set2_ne_row _ _ hik, if_neg (by tauto)]; exact (g3 i (by omega) hir).1 j hj
          · intro i hi hir
            refine ⟨fun j => ?_, by rw [set1_ne _ _ (by omega)]; exact (g4 i (by omega) hir).2⟩
            rw [set2_ne_row _ _ (by omega), if_neg (by omega)]; exact (g4 i (by omega) hir).1 j)
  obtain ⟨g1, g2, g3, -⟩ := loop
  refine ⟨_, _, rfl, ?_, ?_, ?_⟩
  · intro j hj; exact (g1 j hj).trans (r1 j hj)
  · exact g2.trans (by rw [hv1, set1_same])
  · intro i hi hir
    refine ⟨fun j hj => ?_, ?_⟩
    · exact ((g3 i hi hir).1 j hj).trans
        (congrArg (fun z => if j = c then 0 else if |m i c| ≤ tol then m i j else m i j - z * m i c) (g1 j hj)).symm
    · exact (g3 i hi hir).2.trans (congrArg (fun z => if |m i c| ≤ tol then v i else v i - m i c • z) g2).symm

/-- A system of `rows` equations in `cols` unknowns. -/
def SolvesSys (rows cols : Nat) (m : Nat → Nat → K) (v : Nat → V) (x : Nat → V) : Prop :=
  ∀ i, i < rows → ∑ j ∈ range cols, m i j • x j = v i

/-- **C78** a sweep-out on a non-zero pivot turns the pivot column into a unit vector and keeps the set of solutions. -/
theorem sweepOut_correct (rows cols : Nat) (m : Nat → Nat → K) (v : Nat → V) (r c : Nat) (hr : r < rows) (hc : c < cols)
    (hv : m r c ≠ 0) : ∃ m' v', sweepOut 0 rows cols m v r c = ((m', v'), m r c) ∧
    (∀ i, i < rows → m' i c = if i = r then 1 else 0) ∧
    ∀ x, SolvesSys rows cols m' v' x ↔ SolvesSys rows cols m v x := by
  obtain ⟨m', v', e, h1, h2, h3⟩ := sweepOut_rows 0 rows cols m v r c hr hc hv
  refine ⟨m', v', e, ?_, ?_⟩
  · intro i hi
    by_cases hir : i = r
    · subst hir; rw [h1 c hc, if_pos rfl, if_pos rfl]
    · rw [(h3 i hi hir).1 c hc, if_pos rfl, if_neg hir]
  · have row_r : ∀ j, j < cols → m' r j = (1 / m r c) * m r j := by
      intro j hj
      rw [h1 j hj]
      split
      · rename_i h; subst h; field_simp
      · ring
    have row_i : ∀ i, i < rows → i ≠ r → ∀ j, j < cols → m' i j = m i j - m i c * m' r j := by
      intro i hi hir j hj
      rw [(h3 i hi hir).1 j hj]
      by_cases hjc : j = c
      · subst hjc; rw [if_pos rfl, h1 j hj, if_pos rfl]; ring
      · rw [if_neg hjc]
        by_cases h0 : |m i c| ≤ 0
        · rw [if_pos h0, abs_nonpos_iff.1 h0]; ring
        · rw [if_neg h0]; ring
    have rhs_i : ∀ i, i < rows → i ≠ r → v' i = v i - m i c • v' r := by
      intro i hi hir
      rw [(h3 i hi hir).2]
      by_cases h0 : |m i c| ≤ 0
      · rw [if_pos h0, abs_nonpos_iff.1 h0]; simp
      · rw [if_neg h0]
    intro x
    have sum_r : ∑ j ∈ range cols, m' r j • x j = (1 / m r c) • ∑ j ∈ range cols, m r j • x j := by
      rw [smul_sum]
      exact sum_congr rfl fun j hj => by rw [row_r j (mem_range.1 hj), smul_smul]
    have sum_i : ∀ i, i < rows → i ≠ r → ∑ j ∈ range cols, m' i j • x j =
        ∑ j ∈ range cols, m i j • x j - m i c • ∑ j ∈ range cols, m' r j • x j := by
      intro i hi hir
      rw [smul_sum, ← sum_sub_distrib]
      exact sum_congr rfl fun j hj => by rw [row_i i hi hir j (mem_range.1 hj), sub_smul, smul_smul]
    constructor
    · intro h i hi
      have hrr := h r hr
      rw [sum_r, h2] at hrr
      have hrr' : ∑ j ∈ range cols, m r j • x j = v r := by
        have := congrArg (fun y => m r c • y) hrr
        simpa [smul_smul, hv] using this
      by_cases hir : i = r
      · subst hir; exact hrr'
      · have := h i hi
        rw [sum_i i hi hir, rhs_i i hi hir, sum_r, h2, hrr'] at this
        exact sub_left_inj.1 this
    · intro h i hi
      by_cases hir : i = r
      · subst hir; rw [sum_r, h i hi, h2]
      · rw [sum_i i hi hir, rhs_i i hi hir, sum_r, h2, h i hi, h r hr]

/-- A zero pivot: nothing is changed and 0 is returned. -/
theorem sweepOut_zero (tol : K) (rows cols : Nat) (m : Nat → Nat → K) (v : Nat → V) (r c : Nat) (hv : m r c = 0) :
    sweepOut tol rows cols m v r c = ((m, v), 0) := by simp [sweepOut, hv]

example : (fun (i j : Nat) => ((i + 2 * j + 1 : Nat) : ℚ)) 0 1 ≠ 0 := by norm_num

end Zm.LE
