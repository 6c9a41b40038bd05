import Verif.Props.LU
import Mathlib.LinearAlgebra.Matrix.Block
import Mathlib.LinearAlgebra.Matrix.Adjugate

/-! # C17: determinant, adjugate -/

set_option linter.unusedSectionVars false

namespace Zm.LE
open Zm Misc Finset
variable {K : Type*} [Field K] [LinearOrder K] [IsStrictOrderedRing K]

/-- The `n × n` matrix (in the sense of Mathlib) held in an array. -/
def toMatrix (n : Nat) (m : Nat → Nat → K) : Matrix (Fin n) (Fin n) K := Matrix.of fun i j => m i j

/-- The matrix in current row order, with the entries already eliminated (whose storage is stale) put to 0. -/
def detP (n i : Nat) (m : Nat → Nat → K) (idx : Nat → Nat) : Matrix (Fin n) (Fin n) K :=
  Matrix.of fun k j => if j.val < i ∧ j.val < k.val then 0 else m (idx k) j

theorem detP_swap (n i pi : Nat) (m : Nat → Nat → K) (idx : Nat → Nat) (hi : i < n) (h1 : i ≤ pi) (h2 : pi < n) (hne : pi ≠ i) :
    (detP n i m (swap1 idx pi i)).det = - (detP n i m idx).det := by
  have e : detP n i m (swap1 idx pi i) = (detP n i m idx).submatrix (Equiv.swap ⟨pi, h2⟩ ⟨i, hi⟩) id := by
    ext k j
    simp only [detP, Matrix.of_apply, Matrix.submatrix_apply, id, swap1]
    by_cases hk1 : k = ⟨pi, h2⟩
    · subst hk1
      rw [Equiv.swap_apply_left]
      simp only [if_true]
      by_cases hj : j.val < i
      · rw [if_pos (by omega), if_pos (by omega)]
      · rw [if_neg (by omega), if_neg (by omega)]
    · by_cases hk2 : k = ⟨i, hi⟩
      · subst hk2
        rw [Equiv.swap_apply_right]
        have : ¬ i = pi := fun h => hne h.symm
        simp only [this, if_false, if_true]
        by_cases hj : j.val < i
        · rw [if_pos (by omega), if_pos (by omega)]
        · rw [if_neg (by omega), if_neg (by omega)]
      · rw [Equiv.swap_apply_of_ne_of_ne hk1 hk2]
        have a1 : ¬ k.val = pi := fun h => hk1 (Fin.ext h)
        have a2 : ¬ k.val = i := fun h => hk2 (Fin.ext h)
        simp only [a1, a2, if_false]
  rw [e, Matrix.det_permute]
  rw [Equiv.Perm.sign_swap (fun h => hne (Fin.mk.inj_iff.1 h))]
  simp

/-- Elimination keeps the determinant. -/
theorem detP_elim (n i : Nat) (m m' : Nat → Nat → K) (idx : Nat → Nat) (hi : i < n) (hv : m (idx i) i ≠ 0)
    (hm : ∀ k, k < n → ∀ j, m' (idx k) j = if i < k ∧ i < j ∧ j < n then m (idx k) j - m (idx i) j / m (idx i) i * m (idx k) i
      else m (idx k) j) : (detP n (i+1) m' idx).det = (detP n i m idx).det := by
  refine Matrix.det_eq_of_forall_row_eq_smul_add_const (fun k => if i < k.val then - (m (idx k) i / m (idx i) i) else 0)
    ⟨i, hi⟩ (by simp) ?_
  intro k j
  simp only [detP, Matrix.of_apply]
  rw [hm k k.2 j]
  by_cases hk : i < k.val
  · rw [if_pos hk]
    rcases lt_trichotomy j.val i with hj | hj | hj
    · rw [if_pos (by omega), if_pos (by omega), if_pos (by omega)]; ring
    · have e1 : ¬ (j.val < i ∧ j.val < k.val) := by omega
      have e2 : ¬ (j.val < i ∧ j.val < i) := by omega
      rw [if_pos (by omega), if_neg e1, if_neg e2, hj]
      field_simp; ring
    · have e1 : ¬ (j.val < i ∧ j.val < k.val) := by omega
      have e2 : ¬ (j.val < i ∧ j.val < i) := by omega
      have e3 : ¬ (j.val < i + 1 ∧ j.val < k.val) := by omega
      rw [if_neg e3, if_neg e1, if_neg e2, if_pos ⟨hk, hj, j.2⟩]
      ring
  · have e3 : ¬ (i < k.val ∧ i < j.val ∧ j.val < n) := by omega
    rw [if_neg hk, if_neg e3]
    by_cases hj : j.val < i ∧ j.val < k.val
    · rw [if_pos hj, if_pos (by omega)]; ring
    · rw [if_neg hj, if_neg (by omega)]; ring

/-- A vanishing pivot column makes the determinant vanish. -/
theorem detP_zero (n i : Nat) (m : Nat → Nat → K) (idx : Nat → Nat) (hi : i < n)
    (hz : ∀ k, i ≤ k → k < n → m (idx k) i = 0) : (detP n i m idx).det = 0 := by
  rw [Matrix.twoBlockTriangular_det (detP n i m idx) (fun k => k.val < i)]
  · rw [Matrix.det_eq_zero_of_column_eq_zero (A := (detP n i m idx).toSquareBlockProp fun k => ¬ k.val < i) ⟨⟨i, hi⟩, by simp⟩, mul_zero]
    rintro ⟨k, hk⟩
    change detP n i m idx k ⟨i, hi⟩ = 0
    simp only [detP, Matrix.of_apply, lt_irrefl, false_and, if_false]
    exact hz k (by omega) k.2
  · intro k hk j hj
    simp only [detP, Matrix.of_apply]
    rw [if_pos (by omega)]

theorem detP_triangular (n : Nat) (m : Nat → Nat → K) (idx : Nat → Nat) :
    (detP n n m idx).det = ∏ t ∈ range n, m (idx t) t := by
  rw [Matrix.det_of_upperTriangular]
  · rw [Finset.prod_range]
    refine prod_congr rfl fun t _ => ?_
    simp [detP]
  · intro k j hjk
    simp only [detP, Matrix.of_apply, id] at hjk ⊢
    rw [if_pos ⟨j.2, hjk⟩]

/-- Closed form of the elimination loops of `zMatDetDST`. -/
theorem detElim_spec (n i : Nat) (m : Nat → Nat → K) (idx : Nat → Nat) (hi : i < n) (hp : PermOn n idx) :
    ∀ k, k < n → ∀ l, forUp (i+1) n (fun j m => forUp (i+1) n (fun k m =>
        set2 m (idx j) k (m (idx j) k - m (idx i) k / m (idx i) i * m (idx j) i)) m) m (idx k) l =
      if i < k ∧ i < l ∧ l < n then m (idx k) l - m (idx i) l / m (idx i) i * m (idx k) i else m (idx k) l := by
  have hne : ∀ a b, a < n → b < n → a ≠ b → idx a ≠ idx b := fun a b ha hb hab e => hab (hp.2 a b ha hb e)
  have := forUp_inv (lo := i+1) (hi := n) (fun j (m : Nat → Nat → K) => forUp (i+1) n (fun k m =>
        set2 m (idx j) k (m (idx j) k - m (idx i) k / m (idx i) i * m (idx j) i)) m) m
    (fun j t => ∀ k, k < n → ∀ l, t (idx k) l =
      if i < k ∧ k < j ∧ i < l ∧ l < n then m (idx k) l - m (idx i) l / m (idx i) i * m (idx k) i else m (idx k) l) hi
    (by intro k hk l; rw [if_neg (by omega)])
    (by
      intro j t h1 h2 h k hk l
      have hrow : forUp (i+1) n (fun k m => set2 m (idx j) k (m (idx j) k - m (idx i) k / m (idx i) i * m (idx j) i)) t = fun a b =>
          if a = idx j ∧ i + 1 ≤ b ∧ b < n then m (idx j) b - m (idx i) b / m (idx i) i * m (idx j) i else t a b := by
        refine forUp_row (idx j) (fun k m => m (idx j) k - m (idx i) k / m (idx i) i * m (idx j) i) t _ ?_
        intro k' t' g1 g2 g3
        have ij := hne i j hi h2 (by omega)
        have q1 : ∀ b, t (idx i) b = m (idx i) b := fun b => by rw [h i hi b, if_neg (by omega)]
        have q2 : ∀ b, t (idx j) b = m (idx j) b := fun b => by rw [h j h2 b, if_neg (by omega)]
        rw [g3 (idx j) k' (by omega), g3 (idx i) k' (by tauto), g3 (idx i) i (by tauto), g3 (idx j) i (by omega), q1, q1, q2, q2]
      rw [hrow]
      beta_reduce
      by_cases hkj : k = j
      · subst hkj
        by_cases hl : i < l ∧ l < n
        · rw [if_pos ⟨rfl, by omega, hl.2⟩, if_pos (by omega)]
        · rw [if_neg (by omega), if_neg (by omega), h k hk l, if_neg (by omega)]
      · rw [if_neg (fun e => hne k j hk h2 hkj e.1), h k hk l]
        by_cases hc : i < k ∧ k < j ∧ i < l ∧ l < n
        · rw [if_pos hc, if_pos (by omega)]
        · rw [if_neg hc, if_neg (by omega)])
  intro k hk l
  rw [this k hk l]
  by_cases hc : i < k ∧ i < l ∧ l < n
  · rw [if_pos hc, if_pos (by omega)]
  · rw [if_neg hc, if_neg (by omega)]

/-- Invariant of the loop. -/
structure DetInv (n i : Nat) (A : Nat → Nat → K) (det : K) (m : Nat → Nat → K) (idx : Nat → Nat) : Prop where
  perm : PermOn n idx
  ne : det ≠ 0
  sgn : ∃ s : K, s * s = 1 ∧ (toMatrix n A).det = s * (detP n i m idx).det ∧ det = s * ∏ t ∈ range i, m (idx t) t

theorem detStep_spec (tol : K) (ht : 0 ≤ tol) (n i : Nat) (hi : i < n) (A : Nat → Nat → K) (det : K) (m : Nat → Nat → K)
    (idx : Nat → Nat) (h : DetInv n i A det m idx) :
    (detStep tol n i (some (det, m, idx)) = none ∧ (tol = 0 → (toMatrix n A).det = 0)) ∨
    ∃ det' m' idx', detStep tol n i (some (det, m, idx)) = some (det', m', idx') ∧ DetInv n (i+1) A det' m' idx' := by
  obtain ⟨perm, ne, s, hs, hA, hdet⟩ := h
  obtain ⟨pi, h1, h2, e, hmax⟩ := zMatPivoting_spec n m idx i i hi
  -- determinant and sign after pivoting
  have hswi : swap1 idx pi i i = idx pi := by
    unfold swap1; split
    · rename_i h; rw [h]
    · rw [if_pos rfl]
  obtain ⟨s', hs', hA', hdet'⟩ : ∃ s' : K, s' * s' = 1 ∧ (toMatrix n A).det = s' * (detP n i m (swap1 idx pi i)).det ∧
      (if idx i ≠ swap1 idx pi i i then -det else det) = s' * ∏ t ∈ range i, m (swap1 idx pi i t) t := by
    have hprod : ∏ t ∈ range i, m (swap1 idx pi i t) t = ∏ t ∈ range i, m (idx t) t := by
      refine prod_congr rfl fun t ht => ?_
      rw [mem_range] at ht
      unfold swap1
      rw [if_neg (by omega), if_neg (by omega)]
    rw [hprod, hswi]
    by_cases hpi : pi = i
    · subst hpi
      refine ⟨s, hs, ?_, by simp [hdet]⟩
      have : swap1 idx pi pi = idx := by
        funext t; unfold swap1; split
        · rename_i h; rw [h]
        · rfl
      rw [this, hA]
    · refine ⟨-s, by linear_combination hs, ?_, ?_⟩
      · rw [detP_swap n i pi m idx hi h1 h2 hpi, hA]; ring
      · rw [if_pos (fun h => hpi (perm.2 i pi hi h2 h).symm), hdet]; ring
  have perm' := perm.swap h2 hi
  have ne' : (if idx i ≠ swap1 idx pi i i then -det else det) ≠ 0 := by
    split
    · exact neg_ne_zero.2 ne
    · exact ne
  have unf : detStep tol n i (some (det, m, idx)) =
      if zIsTol ((if idx i ≠ swap1 idx pi i i then -det else det) * m (swap1 idx pi i i) i) tol then none
      else some ((if idx i ≠ swap1 idx pi i i then -det else det) * m (swap1 idx pi i i) i,
        forUp (i+1) n (fun j m => forUp (i+1) n (fun k m =>
          set2 m (swap1 idx pi i j) k (m (swap1 idx pi i j) k - m (swap1 idx pi i i) k / m (swap1 idx pi i i) i * m (swap1 idx pi i j) i)) m) m,
        swap1 idx pi i) := by
    simp only [detStep, Option.bind_some, e]
  rw [unf]
  generalize hd : (if idx i ≠ swap1 idx pi i i then -det else det) = d at *
  generalize hidx : swap1 idx pi i = idx' at *
  by_cases htiny : |d * m (idx' i) i| ≤ tol
  · left
    refine ⟨by rw [if_pos (by simpa [zIsTol] using htiny)], fun h0 => ?_⟩
    rw [h0] at htiny
    have : m (idx' i) i = 0 := (mul_eq_zero.1 (abs_nonpos_iff.1 htiny)).resolve_left ne'
    rw [hA', detP_zero n i m idx' hi, mul_zero]
    obtain ⟨-, -, -, hm⟩ := zMatPivoting_props n m idx i i hi perm
    rw [e] at hm
    intro k hk1 hk2
    have := hm k hk1 hk2
    rw [‹m (idx' i) i = 0›, abs_zero] at this
    exact abs_nonpos_iff.1 this
  · right
    have hne0 : d * m (idx' i) i ≠ 0 := fun h => htiny (by rw [h, abs_zero]; exact ht)
    have hv : m (idx' i) i ≠ 0 := right_ne_zero_of_mul hne0
    rw [if_neg (by simpa [zIsTol] using htiny)]
    refine ⟨_, _, _, rfl, perm', hne0, s', hs', ?_, ?_⟩
    · rw [hA', detP_elim n i m _ idx' hi hv (detElim_spec n i m idx' hi perm')]
    · have : ∀ t, t < i + 1 → forUp (i+1) n (fun j m => forUp (i+1) n (fun k m =>
          set2 m (idx' j) k (m (idx' j) k - m (idx' i) k / m (idx' i) i * m (idx' j) i)) m) m (idx' t) t = m (idx' t) t := by
        intro t ht
        rw [detElim_spec n i m idx' hi perm' t (by omega) t, if_neg (by omega)]
      rw [prod_range_succ, this i (by omega), hdet']
      rw [prod_congr rfl fun t ht => this t (by rw [mem_range] at ht; omega)]
      ring

/-- **C17** with any tolerance: what is returned is 0 or exactly the determinant. -/
theorem zMatDet_cases (tol : K) (ht : 0 ≤ tol) (n : Nat) (m : Nat → Nat → K) :
    zMatDet tol n m = (toMatrix n m).det ∨ (zMatDet tol n m = 0 ∧ (tol = 0 → (toMatrix n m).det = 0)) := by
  have := forUp_inv (lo := 0) (hi := n) (detStep tol n) (some (1, m, fun i => i))
    (fun i st => match st with
      | none => tol = 0 → (toMatrix n m).det = 0
      | some (det, m', idx) => DetInv n i m det m' idx) (Nat.zero_le _)
    ⟨by simp [PermOn], one_ne_zero, 1, by simp, by simp [detP, toMatrix], by simp⟩
    (by
      rintro i (_ | ⟨det, m', idx⟩) - hi h
      · exact h
      · rcases detStep_spec tol ht n i hi m det m' idx h with ⟨e, h0⟩ | ⟨d, m2, idx2, e, h0⟩
        · rw [e]; exact h0
        · rw [e]; exact h0)
  unfold zMatDet
  revert this
  generalize forUp 0 n (detStep tol n) (some (1, m, fun i => i)) = st
  rcases st with _ | ⟨det, m', idx⟩
  · intro h; exact Or.inr ⟨rfl, h⟩
  · rintro ⟨-, -, s, hs, hA, hdet⟩
    left
    simp only
    rw [hA, hdet, detP_triangular]

/-- **C17** `zMatDet` computes the determinant (vanishing tolerance). -/
theorem zMatDet_correct (n : Nat) (m : Nat → Nat → K) : zMatDet 0 n m = (toMatrix n m).det := by
  rcases zMatDet_cases 0 (le_refl _) n m with h | ⟨h1, h2⟩
  · exact h
  · rw [h1, h2 rfl]

/-- **C17** a non-zero result is exact whatever the tolerance. -/
theorem zMatDet_nonzero (tol : K) (ht : 0 ≤ tol) (n : Nat) (m : Nat → Nat → K) (h : zMatDet tol n m ≠ 0) :
    zMatDet tol n m = (toMatrix n m).det := by
  rcases zMatDet_cases tol ht n m with h' | ⟨h1, -⟩
  · exact h'
  · exact absurd h1 h

/-! ## Adjugate -/

theorem adjSub_spec (n : Nat) (m : Nat → Nat → K) (i j : Nat) (hi : i < n + 1) (hj : j < n + 1) :
    ∀ u v, u < n → v < n → adjSub (n+1) m i j u v = m (if u < i then u else u + 1) (if v < j then v else v + 1) := by
  have inner : ∀ (k u : Nat) (t : Nat → Nat → K),
      forUp 0 (n+1) (fun l (tv : Nat × (Nat → Nat → K)) =>
        if l = j then tv else (tv.1 + 1, set2 tv.2 u tv.1 (m k l))) (0, t) =
      (n, fun a b => if a = u ∧ b < n then m k (if b < j then b else b + 1) else t a b) := by
    intro k u t
    have := forUp_inv (lo := 0) (hi := n+1) (fun l (tv : Nat × (Nat → Nat → K)) =>
        if l = j then tv else (tv.1 + 1, set2 tv.2 u tv.1 (m k l))) (0, t)
      (fun l s => s = (if l ≤ j then l else l - 1, fun a b => if a = u ∧ b < (if l ≤ j then l else l - 1)
        then m k (if b < j then b else b + 1) else t a b)) (Nat.zero_le _) (by simp)
      (by
        rintro l s - hl rfl
        by_cases hlj : l = j
        · subst hlj
          simp only [if_true]
          rw [if_pos (le_refl _), if_neg (by omega)]
          simp
        · rw [if_neg hlj]
          simp only
          have hc : (if l + 1 ≤ j then l + 1 else l + 1 - 1) = (if l ≤ j then l else l - 1) + 1 := by
            split <;> split <;> omega
          rw [hc]
          refine Prod.ext rfl ?_
          funext a b
          simp only
          by_cases h1 : a = u ∧ b = (if l ≤ j then l else l - 1)
          · obtain ⟨rfl, rfl⟩ := h1
            rw [set2_same, if_pos ⟨rfl, by omega⟩]
            congr 1
            split <;> split <;> omega
          · rw [set2_ne _ _ h1]
            by_cases h2 : a = u ∧ b < (if l ≤ j then l else l - 1)
            · have h3 : a = u ∧ b < (if l ≤ j then l else l - 1) + 1 := ⟨h2.1, by omega⟩
              simp only [h2, h3, and_self, if_true]
            · have h3 : ¬ (a = u ∧ b < (if l ≤ j then l else l - 1) + 1) := by omega
              simp only [h2, h3, if_false])
    rw [this, if_neg (by omega), Nat.add_sub_cancel]
  have outer := forUp_inv (lo := 0) (hi := n+1) (fun k (st : Nat × (Nat → Nat → K)) =>
      if k = i then st else (st.1 + 1, (forUp 0 (n+1) (fun l (tv : Nat × (Nat → Nat → K)) =>
        if l = j then tv else (tv.1 + 1, set2 tv.2 st.1 tv.1 (m k l))) (0, st.2)).2)) (0, fun _ _ => 0)
    (fun k s => s.1 = (if k ≤ i then k else k - 1) ∧ ∀ u v, u < s.1 → v < n →
      s.2 u v = m (if u < i then u else u + 1) (if v < j then v else v + 1)) (Nat.zero_le _)
    ⟨by simp, by intro u v hu; simp at hu⟩
    (by
      rintro k ⟨c, t⟩ - hk ⟨h1, h2⟩
      simp only at h1 h2
      by_cases hki : k = i
      · subst hki
        simp only [if_true]
        refine ⟨?_, h2⟩
        rw [h1, if_pos (le_refl _), if_neg (by omega)]; omega
      · rw [if_neg hki]
        simp only [inner]
        refine ⟨?_, ?_⟩
        · rw [h1]; split <;> split <;> omega
        · intro u v hu hv
          by_cases huc : u = c
          · rw [if_pos ⟨huc, hv⟩]
            congr 1
            rw [huc, h1]
            split <;> split <;> omega
          · rw [if_neg (by tauto)]
            exact h2 u v (by omega) hv)
  intro u v hu hv
  refine outer.2 u v ?_ hv
  rw [outer.1, if_neg (by omega)]; omega

/-- **C17** `zMatAdj` computes the adjugate of a matrix of size at least two (for size one the scratch matrix is empty). -/
theorem zMatAdj_correct (n : Nat) (m adj : Nat → Nat → K) (i j : Fin (n+1)) :
    zMatAdj 0 (n+1) m adj i j = (toMatrix (n+1) m).adjugate i j := by
  have hval : ∀ a b, a < n + 1 → b < n + 1 → zMatAdj 0 (n+1) m adj b a =
      if (a+b) % 2 ≠ 0 then - zMatDet 0 n (adjSub (n+1) m a b) else zMatDet 0 n (adjSub (n+1) m a b) := by
    let val : Nat → Nat → K := fun a b => if (a+b) % 2 ≠ 0 then - zMatDet 0 n (adjSub (n+1) m a b) else zMatDet 0 n (adjSub (n+1) m a b)
    have := forUp_inv (lo := 0) (hi := n+1) (fun i (adj : Nat → Nat → K) => forUp 0 (n+1) (fun j adj => set2 adj j i (val i j)) adj) adj
      (fun k t => ∀ a b, a < k → b < n + 1 → t b a = val a b) (Nat.zero_le _) (by intro a b h; omega)
      (by
        intro k t _ hk h a b ha hb
        have hcol : forUp 0 (n+1) (fun j adj => set2 adj j k (val k j)) t = fun x y =>
            if y = k ∧ 0 ≤ x ∧ x < n + 1 then val k x else t x y :=
          forUp_col k (fun j _ => val k j) t _ (fun _ _ _ _ _ => rfl)
        rw [hcol]
        beta_reduce
        by_cases hak : a = k
        · subst hak; rw [if_pos ⟨rfl, Nat.zero_le _, hb⟩]
        · rw [if_neg (by tauto)]; exact h a b (by omega) hb)
    intro a b ha hb
    exact this a b ha hb
  rw [hval j i j.2 i.2, zMatDet_correct, Matrix.adjugate_fin_succ_eq_det_submatrix]
  have hsub : toMatrix n (adjSub (n+1) m j i) = (toMatrix (n+1) m).submatrix j.succAbove i.succAbove := by
    ext u v
    simp only [toMatrix, Matrix.of_apply, Matrix.submatrix_apply]
    rw [adjSub_spec n m j i j.2 i.2 u v u.2 v.2]
    simp only [Fin.succAbove, Fin.lt_def]
    congr 1
    · by_cases h : u.val < j.val
      · simp [h]
      · simp [h]
    · by_cases h : v.val < i.val
      · simp [h]
      · simp [h]
  rw [hsub]
  by_cases hpar : (j.val + i.val) % 2 = 0
  · rw [if_neg (by simpa using hpar), Even.neg_one_pow (Nat.even_iff.2 hpar), one_mul]
  · rw [if_pos (by simpa using hpar), Odd.neg_one_pow (Nat.odd_iff.2 (by omega))]; ring

/-- The adjugate law in plain sums: `m · adj = det(m) · I`. -/
theorem zMatAdj_mul (n : Nat) (m adj : Nat → Nat → K) (i j : Nat) (hi : i < n + 1) (hj : j < n + 1) :
    ∑ k ∈ range (n+1), m i k * zMatAdj 0 (n+1) m adj k j = if i = j then zMatDet 0 (n+1) m else 0 := by
  have := congrFun (congrFun (Matrix.mul_adjugate (toMatrix (n+1) m)) ⟨i, hi⟩) ⟨j, hj⟩
  rw [Matrix.mul_apply] at this
  rw [Finset.sum_range]
  have e : ∀ k : Fin (n+1), m i k * zMatAdj 0 (n+1) m adj k j = toMatrix (n+1) m ⟨i, hi⟩ k * (toMatrix (n+1) m).adjugate k ⟨j, hj⟩ := by
    intro k
    rw [← zMatAdj_correct n m adj k ⟨j, hj⟩]
    rfl
  rw [sum_congr rfl fun k _ => e k, this, Matrix.smul_apply, Matrix.one_apply, ← zMatDet_correct]
  by_cases h : i = j
  · subst h; simp
  · rw [if_neg (by simpa using h), if_neg h]; simp

/-- A concrete determinant: the code returns −2 for `[[1,2],[3,4]]`. -/
example : zMatDet (0:ℚ) 2 (fun i j => 2 * i + j + 1) = -2 := by
  rw [zMatDet_correct, Matrix.det_fin_two]
  norm_num [toMatrix]

end Zm.LE
