import Verif.Model.LEMore
import Verif.Props.LQ
import Mathlib.LinearAlgebra.Matrix.ToLinearEquiv
import Mathlib.Algebra.Field.Rat
import Mathlib.Algebra.Order.Ring.Rat

/-! # C110: Cholesky decomposition -/

set_option linter.unusedSectionVars false

namespace Zm.LE
open Zm Misc Finset
variable {K : Type*} [Field K] [LinearOrder K] [IsStrictOrderedRing K]

/-! ## Specification -/

/-- A positive semi-definite matrix of size `n`. -/
def PosSemidef (n : Nat) (A : Nat → Nat → K) : Prop := ∀ x : Nat → K, 0 ≤ ∑ r ∈ range n, ∑ s ∈ range n, x r * x s * A r s

/-- A symmetric matrix of size `n`. -/
def SymmOn (n : Nat) (A : Nat → Nat → K) : Prop := ∀ r s, r < n → s < n → A r s = A s r

/-- A Cholesky decomposition with permuted rows: the rows of `l` in the order of `idx` form a lower triangular matrix with positive numbers on
the first `rank` places of the diagonal and zeros from the column `rank` on, and the product of `l` and its transpose is the matrix. -/
structure IsChol (n : Nat) (A l : Nat → Nat → K) (idx : Nat → Nat) (rank : Nat) : Prop where
  perm : PermOn n idx
  le : rank ≤ n
  lower : ∀ i j, i < n → i < j → l (idx i) j = 0
  diag : ∀ i, i < rank → 0 < l (idx i) i
  tail : ∀ r j, r < n → rank ≤ j → l r j = 0
  prod : ∀ r s, r < n → s < n → ∑ k ∈ range rank, l r k * l s k = A r s

/-! ## Permutations -/

theorem sum_permOn (n : Nat) (idx : Nat → Nat) (h : PermOn n idx) (f : Nat → K) : ∑ j ∈ range n, f (idx j) = ∑ r ∈ range n, f r := by
  refine sum_bij (fun j _ => idx j) (fun j hj => mem_range.2 (h.1 j (mem_range.1 hj))) (fun a ha b hb e => h.2 a b (mem_range.1 ha) (mem_range.1 hb) e)
    (fun r hr => ?_) (fun _ _ => rfl)
  obtain ⟨k, hk, e⟩ := h.surj (mem_range.1 hr)
  exact ⟨k, mem_range.2 hk, e⟩

theorem zMatPivotingDiag_props (n : Nat) (m : Nat → Nat → K) (idx : Nat → Nat) (i : Nat) (hi : i < n) (hp : PermOn n idx) :
    PermOn n (zMatPivotingDiag n m idx i) ∧ (∀ k, k < i → zMatPivotingDiag n m idx i k = idx k) ∧
    (∀ k, i ≤ k → k < n → ∃ k', i ≤ k' ∧ k' < n ∧ zMatPivotingDiag n m idx i k = idx k') ∧
    (∀ k, i ≤ k → k < n → |m (zMatPivotingDiag n m idx i k) (zMatPivotingDiag n m idx i k)| ≤ |m (zMatPivotingDiag n m idx i i) (zMatPivotingDiag n m idx i i)|) := by
  obtain ⟨pi, h1, h2, h3, h4⟩ := argmax_spec (fun j => |m (idx j) (idx j)|) i n hi
  have h5 : zMatPivotingDiag n m idx i = swap1 idx pi i := by
    unfold zMatPivotingDiag
    simp only at h3 ⊢
    rw [h3]
  rw [h5]
  have e : ∀ k, i ≤ k → k < n → ∃ k', i ≤ k' ∧ k' < n ∧ swap1 idx pi i k = idx k' := by
    intro k hk hkn
    unfold swap1
    split
    · exact ⟨i, le_refl _, hi, rfl⟩
    · split
      · exact ⟨pi, h1, h2, rfl⟩
      · exact ⟨k, hk, hkn, rfl⟩
  refine ⟨hp.swap h2 hi, ?_, e, ?_⟩
  · intro k hk
    unfold swap1
    rw [if_neg (by omega), if_neg (by omega)]
  · intro k hk hkn
    obtain ⟨k', g1, g2, g3⟩ := e k hk hkn
    have e2 : swap1 idx pi i i = idx pi := by
      unfold swap1; split
      · rename_i h; rw [h]
      · rw [if_pos rfl]
    rw [g3, e2]
    exact h4 k' g1 g2

/-! ## One turn in closed form -/

theorem cholScale_spec (n i : Nat) (idx : Nat → Nat) (hi : i < n) (hp : PermOn n idx) (c : K) (m : Nat → Nat → K) (j k : Nat) (hj : j < n) (hk : k < n) :
    cholScale n i (idx i) idx c m (idx j) (idx k) =
      if (j = i ∧ i < k) ∨ (k = i ∧ i < j) then m (idx j) (idx k) * c else m (idx j) (idx k) := by
  have inj : ∀ a b, a < n → b < n → (idx a = idx b ↔ a = b) := fun a b ha hb => ⟨hp.2 a b ha hb, fun e => by rw [e]⟩
  have h := forUp_inv (lo := i+1) (hi := n) (fun j m =>
      let m := set2 m (idx i) (idx j) (m (idx i) (idx j) * c)
      set2 m (idx j) (idx i) (m (idx j) (idx i) * c)) m
    (fun r (t : Nat → Nat → K) => ∀ j k, j < n → k < n → t (idx j) (idx k) =
      if (j = i ∧ i < k ∧ k < r) ∨ (k = i ∧ i < j ∧ j < r) then m (idx j) (idx k) * c else m (idx j) (idx k)) hi
    (fun j k _ _ => by rw [if_neg (by omega)])
    (by
      intro r t h1 h2 h j k hj hk
      dsimp only
      have hir : idx i ≠ idx r := fun e => by have := hp.2 i r hi h2 e; omega
      by_cases e1 : j = r ∧ k = i
      · obtain ⟨rfl, rfl⟩ := e1
        rw [set2_same, set2_ne _ _ (fun e => hir e.1.symm), h _ _ hj hk, if_neg (by omega), if_pos (by omega)]
      · rw [set2_ne _ _ (by rw [inj _ _ hj h2, inj _ _ hk hi]; exact e1)]
        by_cases e2 : j = i ∧ k = r
        · obtain ⟨rfl, rfl⟩ := e2
          rw [set2_same, h _ _ hj hk, if_neg (by omega), if_pos (by omega)]
        · rw [set2_ne _ _ (by rw [inj _ _ hj hi, inj _ _ hk h2]; exact e2), h _ _ hj hk]
          exact if_congr (by omega) rfl rfl)
  unfold cholScale
  rw [h j k hj hk]
  exact if_congr (by omega) rfl rfl

theorem cholSub_spec (n i : Nat) (idx : Nat → Nat) (hi : i < n) (hp : PermOn n idx) (m : Nat → Nat → K) (j k : Nat) (hj : j < n) (hk : k < n) :
    cholSub n i (idx i) idx m (idx j) (idx k) =
      if i < j ∧ i < k then m (idx j) (idx k) - m (idx j) (idx i) * m (idx i) (idx k) else m (idx j) (idx k) := by
  have inj : ∀ a b, a < n → b < n → (idx a = idx b ↔ a = b) := fun a b ha hb => ⟨hp.2 a b ha hb, fun e => by rw [e]⟩
  have hin : ∀ j0, i < j0 → j0 < n → ∀ t : Nat → Nat → K, ∀ j k, j < n → k < n →
      forUp (i+1) n (fun k m => set2 m (idx j0) (idx k) (m (idx j0) (idx k) - m (idx j0) (idx i) * m (idx i) (idx k))) t (idx j) (idx k) =
      if j = j0 ∧ i < k then t (idx j) (idx k) - t (idx j) (idx i) * t (idx i) (idx k) else t (idx j) (idx k) := by
    intro j0 hij0 hj0 t j k hj hk
    have h := forUp_inv (lo := i+1) (hi := n) (fun k m => set2 m (idx j0) (idx k) (m (idx j0) (idx k) - m (idx j0) (idx i) * m (idx i) (idx k))) t
      (fun r (s : Nat → Nat → K) => ∀ j k, j < n → k < n → s (idx j) (idx k) =
        if j = j0 ∧ i < k ∧ k < r then t (idx j) (idx k) - t (idx j) (idx i) * t (idx i) (idx k) else t (idx j) (idx k)) hi
      (fun j k _ _ => by rw [if_neg (by omega)])
      (by
        intro r s h1 h2 h j k hj hk
        by_cases e : j = j0 ∧ k = r
        · obtain ⟨rfl, rfl⟩ := e
          rw [set2_same, h _ _ hj hk, h _ _ hj hi, h _ _ hi hk, if_neg (by omega), if_neg (by omega), if_neg (by omega), if_pos (by omega)]
        · rw [set2_ne _ _ (by rw [inj _ _ hj hj0, inj _ _ hk h2]; exact e), h _ _ hj hk]
          exact if_congr (by omega) rfl rfl)
    rw [h j k hj hk]
    exact if_congr (by omega) rfl rfl
  have h := forUp_inv (lo := i+1) (hi := n) (fun j m => forUp (i+1) n (fun k m =>
      set2 m (idx j) (idx k) (m (idx j) (idx k) - m (idx j) (idx i) * m (idx i) (idx k))) m) m
    (fun r (t : Nat → Nat → K) => ∀ j k, j < n → k < n → t (idx j) (idx k) =
      if i < j ∧ j < r ∧ i < k then m (idx j) (idx k) - m (idx j) (idx i) * m (idx i) (idx k) else m (idx j) (idx k)) hi
    (fun j k _ _ => by rw [if_neg (by omega)])
    (by
      intro r t h1 h2 h j k hj hk
      rw [hin r (by omega) h2 t j k hj hk]
      by_cases e : j = r ∧ i < k
      · obtain ⟨rfl, e⟩ := e
        rw [if_pos ⟨rfl, e⟩, h _ _ hj hk, h _ _ hj hi, h _ _ hi hk, if_neg (by omega), if_neg (by omega), if_neg (by omega), if_pos (by omega)]
      · rw [if_neg e, h _ _ hj hk]
        exact if_congr (by omega) rfl rfl)
  unfold cholSub
  rw [h j k hj hk]
  exact if_congr (by omega) rfl rfl

/-! ## Invariant -/

/-- The state before the turn `i`. -/
structure CInv (n : Nat) (A : Nat → Nat → K) (i : Nat) (st : CholS K) : Prop where
  perm : PermOn n st.idx
  symm : ∀ j k, j < n → k < n → st.m (st.idx j) (st.idx k) = st.m (st.idx k) (st.idx j)
  done : ∀ t j, t < i → t ≤ j → j < n → ∑ s ∈ range (t+1), st.m (st.idx j) (st.idx s) * st.m (st.idx t) (st.idx s) = A (st.idx j) (st.idx t)
  left : ∀ j k, i ≤ j → i ≤ k → j < n → k < n → st.m (st.idx j) (st.idx k) = A (st.idx j) (st.idx k) - ∑ s ∈ range i, st.m (st.idx j) (st.idx s) * st.m (st.idx k) (st.idx s)
  psd : ∀ x : Nat → K, (∀ s, s < i → x (st.idx s) = 0) → 0 ≤ ∑ r ∈ range n, ∑ s ∈ range n, x r * x s * st.m r s
  le : st.rank ≤ i
  pos : ∀ t, t < st.rank → 0 < st.m (st.idx t) (st.idx t)
  zero : st.rank < i → ∀ j k, st.rank ≤ j → st.rank ≤ k → j < n → k < n → st.m (st.idx j) (st.idx k) = 0

/-- Choosing a pivot does not matter. -/
theorem CInv.pivot {n : Nat} {A : Nat → Nat → K} {i : Nat} {st : CholS K} (h : CInv n A i st) (hi : i < n) : CInv n A i { st with idx := zMatPivotingDiag n st.m st.idx i } := by
  obtain ⟨p1, p2, p3, -⟩ := zMatPivotingDiag_props n st.m st.idx i hi h.perm
  have p4 : ∀ j, j < n → ∃ j', j' < n ∧ zMatPivotingDiag n st.m st.idx i j = st.idx j' ∧ (i ≤ j ↔ i ≤ j') ∧ (j < i → j = j') := by
    intro j hj
    by_cases g : i ≤ j
    · obtain ⟨k', a, b, c⟩ := p3 j g hj
      exact ⟨k', b, c, by omega, by omega⟩
    · exact ⟨j, hj, p2 j (by omega), by omega, by omega⟩
  refine ⟨p1, ?_, ?_, ?_, ?_, h.le, ?_, ?_⟩ <;> dsimp only
  · intro j k hj hk
    obtain ⟨j', a1, a2, -, -⟩ := p4 j hj
    obtain ⟨k', b1, b2, -, -⟩ := p4 k hk
    rw [a2, b2]
    exact h.symm _ _ a1 b1
  · intro t j ht htj hj
    obtain ⟨j', a1, a2, a3, a4⟩ := p4 j hj
    rw [a2, p2 t ht, ← h.done t j' ht (by omega) a1]
    exact sum_congr rfl fun s hs => by rw [p2 s (by have := mem_range.1 hs; omega)]
  · intro j k hij hik hj hk
    obtain ⟨j', a1, a2, a3, -⟩ := p4 j hj
    obtain ⟨k', b1, b2, b3, -⟩ := p4 k hk
    rw [a2, b2, h.left _ _ (a3.1 hij) (b3.1 hik) a1 b1]
    congr 1
    exact sum_congr rfl fun s hs => by rw [p2 s (mem_range.1 hs)]
  · intro x hx
    exact h.psd x fun s hs => by rw [← p2 s hs]; exact hx s hs
  · intro t ht
    rw [p2 t (by have := h.le; omega)]
    exact h.pos t ht
  · intro hr j k hj hk hjn hkn
    obtain ⟨j', a1, a2, a3, a4⟩ := p4 j hjn
    obtain ⟨k', b1, b2, b3, b4⟩ := p4 k hkn
    rw [a2, b2]
    exact h.zero hr _ _ (by omega) (by omega) a1 b1

/-- The quadratic form in the order of the permutation. -/
theorem quad_perm (n : Nat) (idx : Nat → Nat) (hp : PermOn n idx) (m : Nat → Nat → K) (x : Nat → K) :
    ∑ r ∈ range n, ∑ s ∈ range n, x r * x s * m r s = ∑ j ∈ range n, ∑ k ∈ range n, x (idx j) * x (idx k) * m (idx j) (idx k) := by
  rw [← sum_permOn n idx hp (fun r => ∑ s ∈ range n, x r * x s * m r s)]
  refine sum_congr rfl fun j _ => ?_
  rw [← sum_permOn n idx hp (fun s => x (idx j) * x s * m (idx j) s)]

/-- Adding a multiple of one unit vector. -/
theorem quad_add (n : Nat) (m : Nat → Nat → K) (hs : ∀ j k, j < n → k < n → m j k = m k j) (x : Nat → K) (p : Nat) (hp : p < n) (c : K) :
    ∑ r ∈ range n, ∑ s ∈ range n, (x r + if r = p then c else 0) * (x s + if s = p then c else 0) * m r s =
      ∑ r ∈ range n, ∑ s ∈ range n, x r * x s * m r s + 2 * c * ∑ r ∈ range n, x r * m r p + c ^ 2 * m p p := by
  have e : ∀ r s, (x r + if r = p then c else 0) * (x s + if s = p then c else 0) * m r s =
      x r * x s * m r s + (if s = p then c * (x r * m r p) else 0) + (if r = p then c * (x s * m p s) else 0) + (if r = p then (if s = p then c ^ 2 * m p p else 0) else 0) := by
    intro r s
    by_cases e1 : r = p <;> by_cases e2 : s = p <;> simp only [e1, e2, if_true, if_false] <;> ring
  simp only [e, sum_add_distrib]
  have z : ∀ f : Nat → K, ∑ s ∈ range n, (if s = p then f s else 0) = f p := fun f => by rw [sum_ite_eq' (range n) p f, if_pos (mem_range.2 hp)]
  have e1 : ∑ r ∈ range n, ∑ s ∈ range n, (if s = p then c * (x r * m r p) else 0) = c * ∑ r ∈ range n, x r * m r p := by
    rw [mul_sum]
    exact sum_congr rfl fun r _ => z fun _ => c * (x r * m r p)
  have e2 : ∑ r ∈ range n, ∑ s ∈ range n, (if r = p then c * (x s * m p s) else 0) = c * ∑ r ∈ range n, x r * m r p := by
    rw [sum_comm, mul_sum]
    exact sum_congr rfl fun r hr => by rw [z fun _ => c * (x r * m p r), hs p r hp (mem_range.1 hr)]
  have e3 : ∑ r ∈ range n, ∑ s ∈ range n, (if r = p then (if s = p then c ^ 2 * m p p else 0) else 0) = c ^ 2 * m p p := by
    rw [sum_comm]
    have : ∀ s, ∑ r ∈ range n, (if r = p then (if s = p then c ^ 2 * m p p else 0) else 0) = if s = p then c ^ 2 * m p p else 0 := fun s => z fun _ => if s = p then c ^ 2 * m p p else 0
    simp only [this]
    exact z fun _ => c ^ 2 * m p p
  rw [e1, e2, e3]
  ring

theorem quad_two (n : Nat) (m : Nat → Nat → K) (hs : ∀ j k, j < n → k < n → m j k = m k j) (p q : Nat) (hp : p < n) (hq : q < n) (c d : K) :
    ∑ r ∈ range n, ∑ s ∈ range n, ((if r = q then d else 0) + if r = p then c else 0) * ((if s = q then d else 0) + if s = p then c else 0) * m r s =
      d ^ 2 * m q q + 2 * c * d * m q p + c ^ 2 * m p p := by
  rw [quad_add n m hs (fun r => if r = q then d else 0) p hp c]
  have h0 := quad_add n m hs (fun _ => 0) q hq d
  simp only [zero_add, zero_mul, sum_const_zero, mul_zero] at h0
  rw [h0]
  have : ∑ r ∈ range n, (if r = q then d else 0) * m r p = d * m q p := by
    simp only [ite_mul, zero_mul]
    rw [sum_ite_eq' (range n) q (fun r => d * m r p), if_pos (mem_range.2 hq)]
  rw [this]
  ring

/-- The form is not negative on the places from `i` on. -/
theorem CInv.pos_psd {n : Nat} {A : Nat → Nat → K} {i : Nat} {st : CholS K} (h : CInv n A i st) (x : Nat → K) (hx : ∀ s, s < i → x s = 0) :
    0 ≤ ∑ j ∈ range n, ∑ k ∈ range n, x j * x k * st.m (st.idx j) (st.idx k) := by
  classical
  obtain ⟨y, hy, hy0⟩ : ∃ y : Nat → K, (∀ j, j < n → y (st.idx j) = x j) ∧ ∀ s, s < i → y (st.idx s) = 0 := by
    have key : ∀ j, j < n → (if hr : st.idx j < n then x ((h.perm.surj hr).choose) else 0) = x j := by
      intro j hj
      have hr := h.perm.1 j hj
      rw [dif_pos hr]
      congr 1
      exact h.perm.2 _ _ (h.perm.surj hr).choose_spec.1 hj (h.perm.surj hr).choose_spec.2
    refine ⟨fun r => if hr : r < n then x ((h.perm.surj hr).choose) else 0, key, fun s hs => ?_⟩
    by_cases g : s < n
    · exact (key s g).trans (hx s hs)
    · beta_reduce
      split
      · rename_i hr
        exact hx _ (by have := (h.perm.surj hr).choose_spec.1; omega)
      · rfl
  have := h.psd y hy0
  rw [quad_perm n st.idx h.perm] at this
  refine this.trans_eq (sum_congr rfl fun j hj => sum_congr rfl fun k hk => ?_)
  rw [hy j (mem_range.1 hj), hy k (mem_range.1 hk)]

theorem CInv.diag_nonneg {n : Nat} {A : Nat → Nat → K} {i : Nat} {st : CholS K} (h : CInv n A i st) (j : Nat) (hij : i ≤ j) (hj : j < n) : 0 ≤ st.m (st.idx j) (st.idx j) := by
  have h1 := h.pos_psd (fun s => (if s = j then 1 else 0) + if s = j then 0 else 0) (fun s hs => by
    beta_reduce
    rw [if_neg (by omega), if_neg (by omega), add_zero])
  rw [quad_two n (fun j k => st.m (st.idx j) (st.idx k)) h.symm j j hj hj 0 1] at h1
  linarith

theorem CInv.zero_of_diag {n : Nat} {A : Nat → Nat → K} {i : Nat} {st : CholS K} (h : CInv n A i st) (j k : Nat) (hij : i ≤ j) (hik : i ≤ k) (hj : j < n) (hk : k < n)
    (h0 : st.m (st.idx j) (st.idx j) = 0) : st.m (st.idx j) (st.idx k) = 0 := by
  by_contra hne
  have h1 := h.pos_psd (fun s => (if s = k then 1 else 0) + if s = j then -(st.m (st.idx k) (st.idx k) + 1) / (2 * st.m (st.idx j) (st.idx k)) else 0) (fun s hs => by
    beta_reduce
    rw [if_neg (by omega), if_neg (by omega), add_zero])
  rw [quad_two n (fun j k => st.m (st.idx j) (st.idx k)) h.symm j k hj hk _ 1] at h1
  beta_reduce at h1
  rw [h0, h.symm k j hk hj] at h1
  have : 2 * (-(st.m (st.idx k) (st.idx k) + 1) / (2 * st.m (st.idx j) (st.idx k))) * 1 * st.m (st.idx j) (st.idx k) = -(st.m (st.idx k) (st.idx k) + 1) := by
    field_simp
  rw [this] at h1
  linarith

/-- One turn with the pivot `d²`. -/
theorem CInv.turn {n : Nat} {A : Nat → Nat → K} {i : Nat} {st : CholS K} (h : CInv n A i st) (hi : i < n) (d c : K) (m : Nat → Nat → K) (rank : Nat)
    (hm : ∀ j k, j < n → k < n → m (st.idx j) (st.idx k) = if j = i ∧ k = i then d else if (j = i ∧ i < k) ∨ (k = i ∧ i < j) then st.m (st.idx j) (st.idx k) * c
      else if i < j ∧ i < k then st.m (st.idx j) (st.idx k) - st.m (st.idx j) (st.idx i) * c * (st.m (st.idx i) (st.idx k) * c) else st.m (st.idx j) (st.idx k))
    (hd : d * d = st.m (st.idx i) (st.idx i)) (hc : ∀ j, i < j → j < n → st.m (st.idx j) (st.idx i) * c * d = st.m (st.idx j) (st.idx i))
    (hcc : c ^ 2 * c ^ 2 * st.m (st.idx i) (st.idx i) = c ^ 2) (hr : rank ≤ i + 1) (hpos : ∀ t, t < rank → 0 < m (st.idx t) (st.idx t))
    (hz : rank < i + 1 → ∀ j k, rank ≤ j → rank ≤ k → j < n → k < n → m (st.idx j) (st.idx k) = 0) : CInv n A (i+1) ⟨m, st.idx, rank⟩ := by
  have old : ∀ j s, j < n → s < i → m (st.idx j) (st.idx s) = st.m (st.idx j) (st.idx s) := fun j s hj hs => by
    rw [hm j s hj (by omega), if_neg (by omega), if_neg (by omega), if_neg (by omega)]
  refine ⟨h.perm, ?_, ?_, ?_, ?_, hr, hpos, hz⟩ <;> dsimp only
  · intro j k hj hk
    rw [hm j k hj hk, hm k j hk hj, h.symm j k hj hk, h.symm j i hj hi, h.symm i k hi hk]
    by_cases e1 : j = i ∧ k = i
    · rw [if_pos e1, if_pos (And.comm.1 e1)]
    · rw [if_neg e1, if_neg (fun e => e1 (And.comm.1 e))]
      by_cases e2 : (j = i ∧ i < k) ∨ (k = i ∧ i < j)
      · rw [if_pos e2, if_pos (Or.comm.1 e2)]
      · rw [if_neg e2, if_neg (fun e => e2 (Or.comm.1 e))]
        by_cases e3 : i < j ∧ i < k
        · rw [if_pos e3, if_pos (And.comm.1 e3)]; ring
        · rw [if_neg e3, if_neg (fun e => e3 (And.comm.1 e))]
  · intro t j ht htj hj
    by_cases e : t < i
    · rw [← h.done t j e htj hj]
      exact sum_congr rfl fun s hs => by rw [old j s hj (by have := mem_range.1 hs; omega), old t s (by omega) (by have := mem_range.1 hs; omega)]
    · have : t = i := by omega
      subst this
      have hl := h.left j t htj (le_refl _) hj hi
      rw [sum_range_succ, sum_congr rfl (fun s hs => show _ = st.m (st.idx j) (st.idx s) * st.m (st.idx t) (st.idx s) by
        rw [old j s hj (mem_range.1 hs), old t s hi (mem_range.1 hs)]), hm t t hi hi, if_pos ⟨rfl, rfl⟩]
      by_cases g : j = t
      · subst g
        rw [hm j j hi hi, if_pos ⟨rfl, rfl⟩, hd]
        linarith
      · rw [hm j t hj hi, if_neg (by omega), if_pos (by omega), hc j (by omega) hj]
        linarith
  · intro j k hij hik hj hk
    rw [hm j k hj hk, if_neg (by omega), if_neg (by omega), if_pos (by omega), h.left j k (by omega) (by omega) hj hk, sum_range_succ,
      sum_congr rfl (fun s hs => show _ = m (st.idx j) (st.idx s) * m (st.idx k) (st.idx s) by
        rw [old j s hj (mem_range.1 hs), old k s hk (mem_range.1 hs)]), hm j i hj hi, hm k i hk hi, if_neg (by omega), if_pos (by omega), if_neg (by omega), if_pos (by omega),
      h.symm i k hi hk]
    ring
  · intro x hx
    rw [quad_perm n st.idx h.perm]
    have hx0 : ∀ s, s < i → x (st.idx s) = 0 := fun s hs => hx s (by omega)
    have hxi : x (st.idx i) = 0 := hx i (by omega)
    have h1 := h.pos_psd (fun s => x (st.idx s) + if s = i then -(c ^ 2 * ∑ j ∈ range n, x (st.idx j) * st.m (st.idx j) (st.idx i)) else 0) (fun s hs => by
      beta_reduce
      rw [hx0 s hs, if_neg (by omega), add_zero])
    rw [quad_add n (fun j k => st.m (st.idx j) (st.idx k)) h.symm (fun s => x (st.idx s)) i hi] at h1
    beta_reduce at h1
    have e : ∑ j ∈ range n, ∑ k ∈ range n, x (st.idx j) * x (st.idx k) * m (st.idx j) (st.idx k) =
        ∑ j ∈ range n, ∑ k ∈ range n, x (st.idx j) * x (st.idx k) * st.m (st.idx j) (st.idx k) - c ^ 2 * (∑ j ∈ range n, x (st.idx j) * st.m (st.idx j) (st.idx i)) ^ 2 := by
      rw [pow_two (∑ j ∈ range n, x (st.idx j) * st.m (st.idx j) (st.idx i)), sum_mul_sum, mul_sum, ← sum_sub_distrib]
      refine sum_congr rfl fun j hj => ?_
      rw [mul_sum, ← sum_sub_distrib]
      refine sum_congr rfl fun k hk => ?_
      have hj := mem_range.1 hj
      have hk := mem_range.1 hk
      by_cases e1 : i < j
      · by_cases e2 : i < k
        · rw [hm j k hj hk, if_neg (by omega), if_neg (by omega), if_pos ⟨e1, e2⟩, h.symm i k hi hk]
          ring
        · rw [hx k (by omega)]; ring
      · rw [hx j (by omega)]; ring
    rw [e]
    generalize ∑ j ∈ range n, x (st.idx j) * st.m (st.idx j) (st.idx i) = β at h1 ⊢
    generalize ∑ j ∈ range n, ∑ k ∈ range n, x (st.idx j) * x (st.idx k) * st.m (st.idx j) (st.idx k) = Q at h1 ⊢
    have : (-(c ^ 2 * β)) ^ 2 * st.m (st.idx i) (st.idx i) = c ^ 2 * β ^ 2 := by
      calc (-(c ^ 2 * β)) ^ 2 * st.m (st.idx i) (st.idx i) = (c ^ 2 * c ^ 2 * st.m (st.idx i) (st.idx i)) * β ^ 2 := by ring
        _ = c ^ 2 * β ^ 2 := by rw [hcc]
    rw [this] at h1
    linarith

theorem cholStep_spec (sqrt : K → K) (hsq : SqrtOk sqrt) {n : Nat} {A : Nat → Nat → K} {i : Nat} {st : CholS K} (h : CInv n A i st) (hi : i < n) :
    ∃ st', cholStep 0 sqrt n i st = .ok st' ∧ CInv n A (i+1) st' := by
  have h' := h.pivot hi
  obtain ⟨-, -, -, hmax⟩ := zMatPivotingDiag_props n st.m st.idx i hi h.perm
  unfold cholStep
  generalize zMatPivotingDiag n st.m st.idx i = σ at h' hmax ⊢
  obtain ⟨m0, idx0, rank0⟩ := st
  have ha := h'.diag_nonneg i (le_refl _) hi
  dsimp only at h' ha hmax ⊢
  by_cases h0 : m0 (σ i) (σ i) = 0
  · rw [if_pos (by rw [h0]; simp [zIsTol])]
    refine ⟨_, rfl, ?_⟩
    have hdz : ∀ j, i ≤ j → j < n → m0 (σ j) (σ j) = 0 := fun j hij hj => by
      have := hmax j hij hj
      rw [h0, abs_zero] at this
      exact abs_nonpos_iff.1 this
    have hzz : ∀ j k, i ≤ j → i ≤ k → j < n → k < n → m0 (σ j) (σ k) = 0 := fun j k hij hik hj hk => h'.zero_of_diag j k hij hik hj hk (hdz j hij hj)
    have hmm : ∀ j k, j < n → k < n → cholSub n i (σ i) σ (cholScale n i (σ i) σ 0 m0) (σ j) (σ k) = m0 (σ j) (σ k) := by
      intro j k hj hk
      rw [cholSub_spec n i σ hi h'.perm _ j k hj hk, cholScale_spec n i σ hi h'.perm 0 m0 j k hj hk, cholScale_spec n i σ hi h'.perm 0 m0 j i hj hi, cholScale_spec n i σ hi h'.perm 0 m0 i k hi hk]
      by_cases e1 : i < j ∧ i < k
      · rw [if_pos e1, if_neg (by omega), if_pos (by omega), if_pos (by omega)]; ring
      · rw [if_neg e1]
        by_cases e2 : (j = i ∧ i < k) ∨ (k = i ∧ i < j)
        · rw [if_pos e2, hzz j k (by omega) (by omega) hj hk, zero_mul]
        · rw [if_neg e2]
    refine h'.turn hi 0 0 _ rank0 (fun j k hj hk => ?_) (by dsimp only; rw [h0, mul_zero]) (fun j hij hj => by dsimp only; rw [hzz j i (by omega) (le_refl _) hj hi, zero_mul, zero_mul]) (by ring)
      (by have hle : rank0 ≤ i := h.le
          omega) (fun t ht => ?_) (fun hr j k hj hk hjn hkn => ?_)
    · dsimp only
      rw [hmm j k hj hk]
      by_cases e0 : j = i ∧ k = i
      · rw [if_pos e0, e0.1, e0.2, h0]
      · rw [if_neg e0]
        by_cases e2 : (j = i ∧ i < k) ∨ (k = i ∧ i < j)
        · rw [if_pos e2, hzz j k (by omega) (by omega) hj hk, zero_mul]
        · rw [if_neg e2]
          by_cases e1 : i < j ∧ i < k
          · rw [if_pos e1]; ring
          · rw [if_neg e1]
    · have hle : rank0 ≤ i := h.le
      rw [hmm t t (by omega) (by omega)]
      exact h'.pos t ht
    · have hle : rank0 ≤ i := h.le
      rw [hmm j k hjn hkn]
      by_cases e : rank0 < i
      · exact h'.zero e j k hj hk hjn hkn
      · exact hzz j k (by omega) (by omega) hjn hkn
  · have hapos : 0 < m0 (σ i) (σ i) := lt_of_le_of_ne ha (Ne.symm h0)
    obtain ⟨s0, s1⟩ := hsq _ ha
    have hs : sqrt (m0 (σ i) (σ i)) ≠ 0 := fun e => h0 (by rw [← s1, e, mul_zero])
    rw [if_neg (by simp [zIsTol, h0]), if_neg (not_lt.2 ha)]
    refine ⟨_, rfl, ?_⟩
    have hle : rank0 ≤ i := h.le
    have hri : rank0 = i := by
      by_contra hne
      exact h0 (h'.zero (by dsimp only; omega) i i (by dsimp only; omega) (by dsimp only; omega) hi hi)
    generalize hS : sqrt (m0 (σ i) (σ i)) = S at s0 s1 hs ⊢
    have inj : ∀ a b, a < n → b < n → (σ a = σ b ↔ a = b) := fun a b ha hb => ⟨h'.perm.2 a b ha hb, fun e => by rw [e]⟩
    have hset : ∀ j k, j < n → k < n → set2 m0 (σ i) (σ i) S (σ j) (σ k) = if j = i ∧ k = i then S else m0 (σ j) (σ k) := by
      intro j k hj hk
      unfold set2
      exact if_congr (by rw [inj j i hj hi, inj k i hk hi]) rfl rfl
    have hmm : ∀ j k, j < n → k < n → cholSub n i (σ i) σ (cholScale n i (σ i) σ (1 / S) (set2 m0 (σ i) (σ i) S)) (σ j) (σ k) =
        if j = i ∧ k = i then S else if (j = i ∧ i < k) ∨ (k = i ∧ i < j) then m0 (σ j) (σ k) * (1 / S)
        else if i < j ∧ i < k then m0 (σ j) (σ k) - m0 (σ j) (σ i) * (1 / S) * (m0 (σ i) (σ k) * (1 / S)) else m0 (σ j) (σ k) := by
      intro j k hj hk
      rw [cholSub_spec n i σ hi h'.perm _ j k hj hk, cholScale_spec n i σ hi h'.perm _ _ j k hj hk, cholScale_spec n i σ hi h'.perm _ _ j i hj hi, cholScale_spec n i σ hi h'.perm _ _ i k hi hk,
        hset j k hj hk, hset j i hj hi, hset i k hi hk]
      by_cases e0 : j = i ∧ k = i
      · rw [if_pos e0, if_neg (by omega), if_neg (by omega), if_pos e0]
      · rw [if_neg e0, if_neg e0]
        by_cases e1 : i < j ∧ i < k
        · rw [if_pos e1, if_neg (show ¬ ((j = i ∧ i < k) ∨ (k = i ∧ i < j)) by omega), if_pos (show (j = i ∧ i < i) ∨ (i = i ∧ i < j) by omega),
            if_neg (show ¬ (j = i ∧ i = i) by omega), if_pos (show (i = i ∧ i < k) ∨ (k = i ∧ i < i) by omega), if_neg (show ¬ (i = i ∧ k = i) by omega),
            if_neg (show ¬ ((j = i ∧ i < k) ∨ (k = i ∧ i < j)) by omega), if_pos e1]
        · rw [if_neg e1, if_neg e1]
    refine h'.turn hi S (1 / S) _ (rank0 + 1) hmm s1 (fun j hij hj => by field_simp) ?_ (by omega) (fun t ht => ?_) (fun hr => by omega)
    · dsimp only
      rw [← s1]; field_simp
    · dsimp only
      rw [hmm t t (by omega) (by omega)]
      by_cases e : t = i
      · rw [if_pos ⟨e, e⟩]; exact lt_of_le_of_ne s0 (Ne.symm hs)
      · rw [if_neg (by omega), if_neg (by omega), if_neg (by omega)]
        exact h'.pos t (by dsimp only; omega)

theorem cholL_spec (n : Nat) (idx : Nat → Nat) (hp : PermOn n idx) (m : Nat → Nat → K) :
    (∀ i j, i < n → cholL n idx m (idx i) j = if j ≤ i then m (idx i) (idx j) else 0) := by
  have inj : ∀ a b, a < n → b < n → (idx a = idx b ↔ a = b) := fun a b ha hb => ⟨hp.2 a b ha hb, fun e => by rw [e]⟩
  have h := forUp_inv (lo := 0) (hi := n) (fun i l => forUp 0 (i+1) (fun j l => set2 l (idx i) j (m (idx i) (idx j))) l) (fun _ _ => (0 : K))
    (fun r (t : Nat → Nat → K) => ∀ i j, i < n → t (idx i) j = if i < r ∧ j ≤ i then m (idx i) (idx j) else 0) (Nat.zero_le _) (by simp)
    (by
      intro r t _ hr h i j hi
      beta_reduce
      rw [forUp_row (idx r) (fun j _ => m (idx r) (idx j)) t (fun j => m (idx r) (idx j)) (fun k t h1 h2 h3 => rfl)]
      beta_reduce
      by_cases e : i = r ∧ j ≤ r
      · rw [if_pos (by rw [e.1]; exact ⟨rfl, Nat.zero_le _, by omega⟩), if_pos (by omega), e.1]
      · rw [if_neg (by rw [inj i r hi hr]; omega), h i j hi]
        exact if_congr (by omega) rfl rfl)
  intro i j hi
  unfold cholL
  rw [h i j hi]
  exact if_congr (by omega) rfl rfl

theorem cholInv (sqrt : K → K) (hsq : SqrtOk sqrt) (n : Nat) (A : Nat → Nat → K) (hs : SymmOn n A) (hp : PosSemidef n A) :
    ∃ st, forUpM 0 n (cholStep 0 sqrt n) ⟨A, fun i => i, 0⟩ = .ok st ∧ CInv n A n st :=
  forUpM_ok (cholStep 0 sqrt n) ⟨A, fun i => i, 0⟩ (fun i st => CInv n A i st) (Nat.zero_le _)
    ⟨PermOn.id n, fun j k hj hk => hs j k hj hk, fun t j ht => by omega, fun j k _ _ _ _ => by simp, fun x _ => hp x, le_refl _, fun t ht => by simp at ht, fun hr => by simp at hr⟩
    (fun i t _ hi h => cholStep_spec sqrt hsq h hi)

/-- C110: every symmetric positive semi-definite matrix is decomposed, and the rank returned is the number of positive numbers on the diagonal of `l`. -/
theorem zMatDecompCholesky_correct (sqrt : K → K) (hsq : SqrtOk sqrt) (n : Nat) (A : Nat → Nat → K) (hs : SymmOn n A) (hp : PosSemidef n A) :
    ∃ l idx rank, zMatDecompCholesky 0 sqrt n A = .ok (l, idx, rank) ∧ IsChol n A l idx rank := by
  obtain ⟨st, e, h⟩ := cholInv sqrt hsq n A hs hp
  unfold zMatDecompCholesky
  rw [e]
  refine ⟨_, _, _, rfl, ?_⟩
  have hl := cholL_spec n st.idx h.perm st.m
  generalize cholL n st.idx st.m = l at hl ⊢
  have htail : ∀ j k, j < n → st.rank ≤ k → l (st.idx j) k = 0 := by
    intro j k hj hk
    rw [hl j k hj]
    by_cases g : k ≤ j
    · rw [if_pos g]
      exact h.zero (by omega) j k (by omega) hk hj (by omega)
    · rw [if_neg g]
  have hprod : ∀ j t, t ≤ j → j < n → ∑ k ∈ range st.rank, l (st.idx j) k * l (st.idx t) k = A (st.idx j) (st.idx t) := by
    intro j t htj hj
    rw [← h.done t j (by omega) htj hj]
    have e1 : ∑ s ∈ range (t+1), st.m (st.idx j) (st.idx s) * st.m (st.idx t) (st.idx s) = ∑ k ∈ range n, l (st.idx j) k * l (st.idx t) k := by
      rw [← sum_subset (range_subset_range.2 (show t + 1 ≤ n by omega)) (fun k hk hk' => by
        rw [hl t k (by omega), if_neg (by rw [mem_range] at hk'; omega), mul_zero])]
      exact sum_congr rfl fun k hk => by rw [hl j k hj, hl t k (by omega), if_pos (by have := mem_range.1 hk; omega), if_pos (by have := mem_range.1 hk; omega)]
    rw [e1]
    exact sum_subset (range_subset_range.2 h.le) (fun k hk hk' => by rw [htail j k hj (by rw [mem_range] at hk'; omega), zero_mul])
  refine ⟨h.perm, h.le, fun i j hi hij => by rw [hl i j hi, if_neg (by omega)], fun i hi => ?_, fun r j hr hj => ?_, fun r s hr hs' => ?_⟩
  · rw [hl i i (by have := h.le; omega), if_pos (le_refl _)]
    exact h.pos i hi
  · obtain ⟨k, hk, e⟩ := h.perm.surj hr
    rw [← e]
    exact htail k j hk hj
  · obtain ⟨j, hj, e1⟩ := h.perm.surj hr
    obtain ⟨t, ht, e2⟩ := h.perm.surj hs'
    rw [← e1, ← e2]
    by_cases g : t ≤ j
    · exact hprod j t g hj
    · rw [hs _ _ (h.perm.1 j hj) (h.perm.1 t ht), ← hprod t j (by omega) ht]
      exact sum_congr rfl fun k _ => mul_comm _ _

/-- C110: an error is reported only for matrices that are not positive semi-definite. -/
theorem zMatDecompCholesky_refuses (sqrt : K → K) (hsq : SqrtOk sqrt) (n : Nat) (A : Nat → Nat → K) (hs : SymmOn n A) (h : zMatDecompCholesky 0 sqrt n A = .fail) : ¬ PosSemidef n A := by
  intro hp
  obtain ⟨l, idx, rank, e, -⟩ := zMatDecompCholesky_correct sqrt hsq n A hs hp
  rw [e] at h
  cases h

/-- C110: the rank of a positive definite matrix is full. -/
theorem zMatDecompCholesky_definite (sqrt : K → K) (hsq : SqrtOk sqrt) (n : Nat) (A : Nat → Nat → K) (hs : SymmOn n A)
    (hp : ∀ x : Nat → K, (∃ i, i < n ∧ x i ≠ 0) → 0 < ∑ r ∈ range n, ∑ s ∈ range n, x r * x s * A r s) :
    ∃ l idx, zMatDecompCholesky 0 sqrt n A = .ok (l, idx, n) ∧ IsChol n A l idx n := by
  have hp' : PosSemidef n A := by
    intro x
    by_cases g : ∃ i, i < n ∧ x i ≠ 0
    · exact (hp x g).le
    · push Not at g
      exact (sum_eq_zero fun r hr => sum_eq_zero fun s _ => by rw [g r (mem_range.1 hr), zero_mul, zero_mul]).ge
  obtain ⟨l, idx, rank, e, h⟩ := zMatDecompCholesky_correct sqrt hsq n A hs hp'
  have hr : rank = n := by
    by_contra hne
    -- the rows of `l` lie in a space of a smaller dimension
    have hlt : rank < n := lt_of_le_of_ne h.le hne
    have hn : n - 1 < n := by omega
    have hdet : (Matrix.of fun (i j : Fin n) => l i j).det = 0 :=
      Matrix.det_eq_zero_of_column_eq_zero ⟨n - 1, hn⟩ fun i => h.tail i (n - 1) i.2 (by omega)
    obtain ⟨v, hv, h0⟩ := Matrix.exists_vecMul_eq_zero_iff.2 hdet
    obtain ⟨i0, hi0⟩ := Function.ne_iff.1 hv
    let z : Nat → K := fun i => if hi : i < n then v ⟨i, hi⟩ else 0
    have hz : ∀ i : Fin n, z i = v i := fun i => by simp [z]
    have hl0 : ∀ j, j < n → ∑ i ∈ range n, z i * l i j = 0 := by
      intro j hj
      have := congrFun h0 ⟨j, hj⟩
      simp only [Matrix.vecMul, dotProduct, Matrix.of_apply, Pi.zero_apply] at this
      rw [sum_range]
      simp only [hz]
      exact this
    have h1 := hp z ⟨i0, i0.2, by rw [hz]; exact hi0⟩
    have h2 : ∑ r ∈ range n, ∑ s ∈ range n, z r * z s * A r s = ∑ k ∈ range rank, (∑ r ∈ range n, z r * l r k) * ∑ s ∈ range n, z s * l s k := by
      simp only [sum_mul_sum]
      conv_rhs => rw [sum_comm]
      refine sum_congr rfl fun r hr => ?_
      conv_rhs => rw [sum_comm]
      refine sum_congr rfl fun s hs' => ?_
      rw [← h.prod r s (mem_range.1 hr) (mem_range.1 hs'), mul_sum]
      exact sum_congr rfl fun k _ => by ring
    rw [h2, sum_eq_zero fun k hk => by rw [hl0 k (by have := mem_range.1 hk; omega), zero_mul]] at h1
    exact lt_irrefl _ h1
  subst hr
  exact ⟨l, idx, e, h⟩

/-- C110 is false of the matrix ((0, 1), (1, 0)), which is not positive semi-definite: instead of an error, the rank 0 is returned. -/
theorem zMatDecompCholesky_indefinite_violated :
    (∃ l idx, zMatDecompCholesky (K := ℚ) 0 (fun x => x) 2 (fun i j => if i = j then 0 else 1) = .ok (l, idx, 0)) ∧
    ¬ PosSemidef (K := ℚ) 2 (fun i j => if i = j then 0 else 1) := by
  constructor
  · have h : (match zMatDecompCholesky (K := ℚ) 0 (fun x => x) 2 (fun i j => if i = j then 0 else 1) with
      | .ok (_, _, r) => decide (r = 0)
      | _ => false) = true := by decide +kernel
    generalize zMatDecompCholesky (K := ℚ) 0 (fun x => x) 2 (fun i j => if i = j then 0 else 1) = r at h ⊢
    match r, h with
    | .ok (l, idx, r), h => exact ⟨l, idx, by rw [of_decide_eq_true h]⟩
  · intro h
    have := h (fun i => if i = 0 then 1 else -1)
    norm_num [sum_range_succ] at this

/-- The matrix ((4, 2), (2, 10)): the larger number on the diagonal comes first. -/
example : (match zMatDecompCholesky (K := ℚ) 0 (fun x => if x = 16 then 4 else if x = 25 then 5 else if x = 9 then 3 else 0) 2 (fun i j => if i = 0 ∧ j = 0 then 10 else if i = 1 ∧ j = 1 then 16 else 4) with
    | .ok (l, idx, r) => decide (idx 0 = 1 ∧ idx 1 = 0 ∧ r = 2 ∧ l 1 0 = 4 ∧ l 0 0 = 1 ∧ l 0 1 = 3 ∧ l 1 1 = 0)
    | _ => false) = true := by decide +kernel

/-- A matrix with a negative number on the diagonal is refused. -/
example : zMatDecompCholesky (K := ℚ) 0 (fun x => x) 1 (fun _ _ => -1) = .fail := rfl

end Zm.LE
