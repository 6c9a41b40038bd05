import Verif.Model.LE
import Verif.Base.Tac
import Mathlib.Algebra.BigOperators.Ring.Finset
import Mathlib.Algebra.Module.BigOperators
import Mathlib.Algebra.Order.BigOperators.Group.Finset
import Mathlib.Algebra.BigOperators.Fin
import Mathlib.LinearAlgebra.Matrix.NonsingularInverse

/-! # C14, C15, C18 (elimination), C19 and sweep-out -/

set_option linter.unusedSectionVars false

namespace Zm.LE
open Zm Misc Finset
variable {K : Type*} [Field K] [LinearOrder K] {V : Type*} [AddCommGroup V] [Module K V]

/-! ## Pivoting -/

/-- `idx` is a permutation of `0..n-1`. -/
def PermOn (n : Nat) (idx : Nat → Nat) : Prop :=
  (∀ k, k < n → idx k < n) ∧ (∀ j k, j < n → k < n → idx j = idx k → j = k)

omit [Field K] in
theorem argmax_spec (f : Nat → K) (r n : Nat) (hr : r < n) :
    ∃ pi, r ≤ pi ∧ pi < n ∧ (forUp (r+1) n (fun i (s : Nat × K) => if f i > s.2 then (i, f i) else s) (r, f r)) = (pi, f pi) ∧
      ∀ k, r ≤ k → k < n → f k ≤ f pi := by
  have := forUp_inv (lo := r+1) (hi := n) (fun i (s : Nat × K) => if f i > s.2 then (i, f i) else s) (r, f r)
    (fun k s => ∃ pi, r ≤ pi ∧ pi < k ∧ s = (pi, f pi) ∧ ∀ j, r ≤ j → j < k → f j ≤ f pi) hr
    ⟨r, le_refl _, by omega, rfl, fun j h1 h2 => by have : j = r := by omega
                                                    rw [this]⟩
    (by
      rintro k s h1 h2 ⟨pi, g1, g2, rfl, g3⟩
      by_cases h : f k > f pi
      · refine ⟨k, by omega, by omega, by simp [h], fun j h3 h4 => ?_⟩
        by_cases hjk : j = k
        · rw [hjk]
        · exact (g3 j h3 (by omega)).trans h.le
      · refine ⟨pi, g1, by omega, by simp [h], fun j h3 h4 => ?_⟩
        by_cases hjk : j = k
        · rw [hjk]; exact not_lt.1 h
        · exact g3 j h3 (by omega))
  obtain ⟨pi, h1, h2, h3, h4⟩ := this
  exact ⟨pi, h1, h2, h3, h4⟩

theorem zMatPivoting_spec (n : Nat) (m : Nat → Nat → K) (idx : Nat → Nat) (r c : Nat) (hr : r < n) :
    ∃ pi, r ≤ pi ∧ pi < n ∧ zMatPivoting n m idx r c = swap1 idx pi r ∧
      ∀ k, r ≤ k → k < n → |m (idx k) c| ≤ |m (idx pi) c| := by
  obtain ⟨pi, h1, h2, h3, h4⟩ := argmax_spec (fun i => |m (idx i) c|) r n hr
  refine ⟨pi, h1, h2, ?_, h4⟩
  unfold zMatPivoting
  simp only at h3 ⊢
  rw [h3]

theorem PermOn.swap {n : Nat} {idx : Nat → Nat} (h : PermOn n idx) {i j : Nat} (hi : i < n) (hj : j < n) :
    PermOn n (swap1 idx i j) := by
  obtain ⟨h1, h2⟩ := h
  constructor
  · intro k hk
    unfold swap1; split
    · exact h1 _ hj
    · split
      · exact h1 _ hi
      · exact h1 _ hk
  · intro a b ha hb e
    unfold swap1 at e
    split at e <;> split at e <;> (try split at e) <;> (try split at e)
    all_goals
      first
      | omega
      | (have := h2 _ _ (by assumption) (by assumption) e; omega)

/-- After pivoting: still a permutation, the first `r` entries are untouched, and the pivot has the largest magnitude in
the column among the remaining rows. -/
theorem zMatPivoting_props (n : Nat) (m : Nat → Nat → K) (idx : Nat → Nat) (r c : Nat) (hr : r < n) (hp : PermOn n idx) :
    PermOn n (zMatPivoting n m idx r c) ∧ (∀ k, k < r → zMatPivoting n m idx r c k = idx k) ∧
    (∀ k, r ≤ k → k < n → ∃ k', r ≤ k' ∧ k' < n ∧ zMatPivoting n m idx r c k = idx k') ∧
    (∀ k, r ≤ k → k < n → |m (zMatPivoting n m idx r c k) c| ≤ |m (zMatPivoting n m idx r c r) c|) := by
  obtain ⟨pi, h1, h2, h3, h4⟩ := zMatPivoting_spec n m idx r c hr
  rw [h3]
  have e : ∀ k, r ≤ k → k < n → ∃ k', r ≤ k' ∧ k' < n ∧ swap1 idx pi r k = idx k' := by
    intro k hk hkn
    unfold swap1
    split
    · exact ⟨r, le_refl _, hr, rfl⟩
    · split
      · exact ⟨pi, h1, h2, rfl⟩
      · exact ⟨k, hk, hkn, rfl⟩
  refine ⟨hp.swap h2 hr, ?_, e, ?_⟩
  · intro k hk
    unfold swap1
    rw [if_neg (by omega), if_neg (by omega)]
  · intro k hk hkn
    obtain ⟨k', g1, g2, g3⟩ := e k hk hkn
    have e2 : swap1 idx pi r r = idx pi := by
      unfold swap1; split
      · rename_i h; rw [h]
      · rw [if_pos rfl]
    rw [g3, e2]
    exact h4 k' g1 g2

/-! ## One elimination step in closed form -/

theorem elimRow_spec (tol : K) (n i p j : Nat) (st : GS K V) (hpq : p ≠ st.idx j) :
    (elimRow tol n i p j st).idx = st.idx ∧
    (∀ q, q ≠ st.idx j → (∀ l, (elimRow tol n i p j st).a q l = st.a q l) ∧ (elimRow tol n i p j st).b q = st.b q) ∧
    (∀ l, (elimRow tol n i p j st).a (st.idx j) l = if l = i then 0 else if i < l ∧ l < n ∧ ¬ |st.a (st.idx j) i| ≤ tol
      then st.a (st.idx j) l - st.a p l * st.a (st.idx j) i else st.a (st.idx j) l) ∧
    (elimRow tol n i p j st).b (st.idx j) = if |st.a (st.idx j) i| ≤ tol then st.b (st.idx j)
      else st.b (st.idx j) - st.a (st.idx j) i • st.b p := by
  have hrow : forUp (i+1) n (fun k a => set2 a (st.idx j) k (a (st.idx j) k - a p k * st.a (st.idx j) i)) st.a = fun q l =>
      if q = st.idx j ∧ i + 1 ≤ l ∧ l < n then st.a (st.idx j) l - st.a p l * st.a (st.idx j) i else st.a q l := by
    refine forUp_row (st.idx j) (fun k a => a (st.idx j) k - a p k * st.a (st.idx j) i) st.a _ ?_
    intro k t h1 h2 h3
    rw [h3 _ _ (by omega), h3 _ _ (by omega)]
  by_cases ht : |st.a (st.idx j) i| ≤ tol
  · have e : elimRow tol n i p j st = { st with a := set2 st.a (st.idx j) i 0 } := by
      simp [elimRow, zIsTol, ht]
    rw [e]
    refine ⟨rfl, fun q hq => ⟨fun l => set2_ne_row _ _ hq, rfl⟩, ?_, by simp [ht]⟩
    intro l
    by_cases hl : l = i
    · subst hl; simp
    · simp [hl, ht, set2_ne_col]
  · have e : elimRow tol n i p j st = { st with
        a := set2 (fun q l => if q = st.idx j ∧ i + 1 ≤ l ∧ l < n then st.a (st.idx j) l - st.a p l * st.a (st.idx j) i else st.a q l) (st.idx j) i 0,
        b := set1 st.b (st.idx j) (st.b (st.idx j) - st.a (st.idx j) i • st.b p) } := by
      simp only [elimRow, zIsTol, ht, decide_false, Bool.not_false, if_true, hrow]
    rw [e]
    refine ⟨rfl, fun q hq => ⟨fun l => ?_, ?_⟩, ?_, by simp [ht]⟩
    · simp only; rw [set2_ne_row _ _ hq]; simp [hq]
    · simp only; rw [set1_ne _ _ hq]
    · intro l
      by_cases hl : l = i
      · subst hl; simp
      · simp only
        rw [set2_ne_col _ _ hl, if_neg hl]
        by_cases hil : i < l ∧ l < n
        · rw [if_pos ⟨rfl, by omega, hil.2⟩, if_pos ⟨hil.1, hil.2, ht⟩]
        · rw [if_neg (by omega), if_neg (by tauto)]

/-- What one successful step of the forward elimination does, row by row. -/
structure StepOk (tol : K) (n i : Nat) (st st' : GS K V) : Prop where
  idx : st'.idx = zMatPivoting n st.a st.idx i i
  piv : st.a (st'.idx i) i ≠ 0
  prow : ∀ l, st'.a (st'.idx i) l = if l = i then 1 else if i < l ∧ l < n then st.a (st'.idx i) l * (1 / st.a (st'.idx i) i)
    else st.a (st'.idx i) l
  pb : st'.b (st'.idx i) = (1 / st.a (st'.idx i) i) • st.b (st'.idx i)
  erow : ∀ k, i < k → k < n → ∀ l, st'.a (st'.idx k) l = if l = i then 0 else
    if i < l ∧ l < n ∧ ¬ |st.a (st'.idx k) i| ≤ tol
      then st.a (st'.idx k) l - st'.a (st'.idx i) l * st.a (st'.idx k) i else st.a (st'.idx k) l
  eb : ∀ k, i < k → k < n → st'.b (st'.idx k) = if |st.a (st'.idx k) i| ≤ tol then st.b (st'.idx k)
      else st.b (st'.idx k) - st.a (st'.idx k) i • st'.b (st'.idx i)
  urow : ∀ k, k < i → (∀ l, st'.a (st'.idx k) l = st.a (st'.idx k) l) ∧ st'.b (st'.idx k) = st.b (st'.idx k)

theorem forwardStep_spec (tol : K) (n i : Nat) (hi : i < n) (st : GS K V) (hp : PermOn n st.idx) :
    (st.a (zMatPivoting n st.a st.idx i i i) i = 0 ∧ forwardStep tol n i st = .fail) ∨
    ∃ st', forwardStep tol n i st = .ok st' ∧ StepOk tol n i st st' := by
  obtain ⟨pp, -, -, -⟩ := zMatPivoting_props n st.a st.idx i i hi hp
  generalize hidx : zMatPivoting n st.a st.idx i i = idx at *
  by_cases h0 : st.a (idx i) i = 0
  · left
    refine ⟨h0, ?_⟩
    unfold forwardStep
    simp only [hidx, h0, if_true]
  · right
    have hrow : forUp (i+1) n (fun j a => set2 a (idx i) j (a (idx i) j * (1 / st.a (idx i) i))) (set2 st.a (idx i) i 1) =
        fun q l => if q = idx i ∧ i + 1 ≤ l ∧ l < n then st.a (idx i) l * (1 / st.a (idx i) i)
          else set2 st.a (idx i) i 1 q l := by
      refine forUp_row (idx i) (fun j a => a (idx i) j * (1 / st.a (idx i) i)) _ _ ?_
      intro k t h1 h2 h3
      rw [h3 _ _ (by omega), set2_ne_col _ _ (by omega)]
    obtain ⟨a1, ha1⟩ : ∃ a1, a1 = fun q l => if q = idx i ∧ i + 1 ≤ l ∧ l < n then st.a (idx i) l * (1 / st.a (idx i) i)
          else set2 st.a (idx i) i 1 q l := ⟨_, rfl⟩
    obtain ⟨b1, hb1⟩ : ∃ b1, b1 = set1 st.b (idx i) ((1 / st.a (idx i) i) • st.b (idx i)) := ⟨_, rfl⟩
    have ha1p : ∀ l, a1 (idx i) l = if l = i then 1 else if i < l ∧ l < n then st.a (idx i) l * (1 / st.a (idx i) i)
        else st.a (idx i) l := by
      intro l
      rw [ha1]; simp only [true_and]
      by_cases hl : l = i
      · subst hl; rw [if_neg (by omega), if_pos rfl, set2_same]
      · rw [if_neg hl, set2_ne_col _ _ hl]
        by_cases hil : i < l ∧ l < n
        · rw [if_pos (by omega), if_pos hil]
        · rw [if_neg (by omega), if_neg hil]
    have ha1q : ∀ q l, q ≠ idx i → a1 q l = st.a q l := by
      intro q l hq
      rw [ha1]; simp only [hq, false_and, if_false]; rw [set2_ne_row _ _ hq]
    have hne : ∀ k, k < n → k ≠ i → idx k ≠ idx i := fun k hk hki e => hki (pp.2 k i hk hi e)
    have loop := forUp_inv (lo := i+1) (hi := n) (elimRow tol n i (idx i)) ({ a := a1, b := b1, idx := idx } : GS K V)
      (fun j t => t.idx = idx ∧ (∀ l, t.a (idx i) l = a1 (idx i) l) ∧ t.b (idx i) = b1 (idx i) ∧
        (∀ k, i < k → k < j → ∀ l, t.a (idx k) l = if l = i then 0 else if i < l ∧ l < n ∧ ¬ |st.a (idx k) i| ≤ tol
          then st.a (idx k) l - a1 (idx i) l * st.a (idx k) i else st.a (idx k) l) ∧
        (∀ k, i < k → k < j → t.b (idx k) = if |st.a (idx k) i| ≤ tol then st.b (idx k)
          else st.b (idx k) - st.a (idx k) i • b1 (idx i)) ∧
        (∀ k, (k < i ∨ j ≤ k) → k < n → (∀ l, t.a (idx k) l = st.a (idx k) l) ∧ t.b (idx k) = st.b (idx k)))
      hi
      ⟨rfl, fun _ => rfl, rfl, by intro k h1 h2; omega, by intro k h1 h2; omega, by
        intro k hk hkn
        have := hne k hkn (by omega)
        exact ⟨fun l => ha1q _ _ this, by simp only; rw [hb1, set1_ne _ _ this]⟩⟩
      (by
        rintro j t h1 h2 ⟨e1, e2, e3, e4, e5, e6⟩
        obtain ⟨s1, s2, s3, s4⟩ := elimRow_spec tol n i (idx i) j t (by rw [e1]; exact (hne j h2 (by omega)).symm)
        rw [e1] at s2 s3 s4 s1
        have hij := (hne j h2 (by omega)).symm
        have hnn : ∀ k, k < n → k ≠ j → idx k ≠ idx j := fun k hk hkj e => hkj (pp.2 k j hk h2 e)
        obtain ⟨u1, u2⟩ := e6 j (Or.inr (le_refl _)) h2
        refine ⟨s1, ?_, ?_, ?_, ?_, ?_⟩
        · intro l; rw [(s2 _ hij).1, e2]
        · rw [(s2 _ hij).2, e3]
        · intro k hk hkj l
          by_cases hkj' : k = j
          · subst hkj'
            rw [s3, u1, u1, e2]
          · rw [(s2 _ (hnn k (by omega) hkj')).1, e4 k hk (by omega)]
        · intro k hk hkj
          by_cases hkj' : k = j
          · subst hkj'
            rw [s4, u1, u2, e3]
          · rw [(s2 _ (hnn k (by omega) hkj')).2, e5 k hk (by omega)]
        · intro k hk hkn
          have := hnn k hkn (by omega)
          obtain ⟨v1, v2⟩ := e6 k (by omega) hkn
          exact ⟨fun l => by rw [(s2 _ this).1, v1], by rw [(s2 _ this).2, v2]⟩)
    obtain ⟨e1, e2, e3, e4, e5, e6⟩ := loop
    refine ⟨forUp (i+1) n (elimRow tol n i (idx i)) ({ a := a1, b := b1, idx := idx } : GS K V), ?_, ?_⟩
    · unfold forwardStep
      simp only [hidx, h0, if_false]
      rw [hrow, ← ha1, ← hb1]
    · generalize forUp (i+1) n (elimRow tol n i (idx i)) ({ a := a1, b := b1, idx := idx } : GS K V) = st' at *
      constructor
      · rw [e1, hidx]
      · rw [e1]; exact h0
      · intro l; rw [e1, e2, ha1p]
      · rw [e1, e3, hb1, set1_same]
      · intro k h1 h2 l; rw [e1, e4 k h1 h2, e2]
      · intro k h1 h2; rw [e1, e5 k h1 h2, e3]
      · intro k hk; rw [e1]; exact e6 k (Or.inl hk) (by omega)

/-! ## Factorisation invariant -/

variable [IsStrictOrderedRing K]

/-- The current rows are related to the original system `A0 y = B0` by invertible row operations, up to a perturbation
`E` of the original matrix whose entries are entries that were skipped because their magnitude is at most `tol`. -/
structure GInv (tol : K) (n i : Nat) (A0 : Nat → Nat → K) (B0 : Nat → V) (st : GS K V) (E : Nat → Nat → K) (α : Nat → K)
    (mlt : Nat → Nat → K) : Prop where
  perm : PermOn n st.idx
  tri0 : ∀ k, k < n → ∀ j, j < i → j < k → st.a (st.idx k) j = 0
  tri1 : ∀ k, k < i → st.a (st.idx k) k = 1
  Eb : ∀ q j, |E q j| ≤ tol
  E0 : ∀ q j, i ≤ j → E q j = 0
  α0 : ∀ k, k < n → α (st.idx k) ≠ 0
  α1 : ∀ k, i ≤ k → k < n → α (st.idx k) = 1
  rowA : ∀ k, k < n → ∀ j, j < n → A0 (st.idx k) j - E (st.idx k) j =
    α (st.idx k) * st.a (st.idx k) j + ∑ t ∈ range (min k i), mlt (st.idx k) t * st.a (st.idx t) j
  rowB : ∀ k, k < n → B0 (st.idx k) =
    α (st.idx k) • st.b (st.idx k) + ∑ t ∈ range (min k i), mlt (st.idx k) t • st.b (st.idx t)

theorem ginv_init (tol : K) (ht : 0 ≤ tol) (n : Nat) (idx : Nat → Nat) (hidx : PermOn n idx) (A0 : Nat → Nat → K) (B0 : Nat → V) :
    GInv tol n 0 A0 B0 { a := A0, b := B0, idx := idx } (fun _ _ => 0) (fun _ => 1) (fun _ _ => 0) := by
  constructor <;> simp [hidx, ht]

/-- Re-ordering the rows that have not been eliminated keeps the invariant. -/
theorem ginv_pivot {tol : K} {n i : Nat} {A0 : Nat → Nat → K} {B0 : Nat → V} {st : GS K V} {E : Nat → Nat → K} {α : Nat → K}
    {mlt : Nat → Nat → K} (hi : i < n) (h : GInv tol n i A0 B0 st E α mlt) :
    GInv tol n i A0 B0 { st with idx := zMatPivoting n st.a st.idx i i } E α mlt := by
  obtain ⟨p1, p2, p3, -⟩ := zMatPivoting_props n st.a st.idx i i hi h.perm
  generalize zMatPivoting n st.a st.idx i i = idx at *
  have key : ∀ k, k < n → ∃ k', k' < n ∧ idx k = st.idx k' ∧ min k' i = min k i ∧ (k < i → k' = k) ∧ (i ≤ k → i ≤ k') := by
    intro k hk
    by_cases hki : k < i
    · exact ⟨k, hk, p2 k hki, rfl, fun _ => rfl, fun h => h⟩
    · obtain ⟨k', g1, g2, g3⟩ := p3 k (by omega) hk
      exact ⟨k', g2, g3, by omega, by omega, fun _ => g1⟩
  constructor
  · exact p1
  · intro k hk j hj hjk
    obtain ⟨k', g1, g2, g3, g4, g5⟩ := key k hk
    simp only [g2]
    exact h.tri0 k' g1 j hj (by omega)
  · intro k hk
    simp only [p2 k hk]
    exact h.tri1 k hk
  · exact h.Eb
  · exact h.E0
  · intro k hk
    obtain ⟨k', g1, g2, -⟩ := key k hk
    simp only [g2]; exact h.α0 k' g1
  · intro k hk hkn
    obtain ⟨k', g1, g2, -, -, g5⟩ := key k hkn
    simp only [g2]; exact h.α1 k' (g5 hk) g1
  · intro k hk j hj
    obtain ⟨k', g1, g2, g3, -⟩ := key k hk
    simp only [g2]
    rw [h.rowA k' g1 j hj, g3]
    congr 1
    refine sum_congr rfl fun t ht => ?_
    rw [mem_range] at ht
    rw [p2 t (by omega)]
  · intro k hk
    obtain ⟨k', g1, g2, g3, -⟩ := key k hk
    simp only [g2]
    rw [h.rowB k' g1, g3]
    congr 1
    refine sum_congr rfl fun t ht => ?_
    rw [mem_range] at ht
    rw [p2 t (by omega)]

theorem ginv_step {tol : K} {n i : Nat} {A0 : Nat → Nat → K} {B0 : Nat → V} {st st' : GS K V}
    {E : Nat → Nat → K} {α : Nat → K} {mlt : Nat → Nat → K} (hi : i < n) (h0 : GInv tol n i A0 B0 st E α mlt)
    (hs : StepOk tol n i st st') : ∃ E' α' mlt', GInv tol n (i+1) A0 B0 st' E' α' mlt' := by
  have h := ginv_pivot hi h0
  obtain ⟨perm, tri0, tri1, Eb, E0, α0, α1, rowA, rowB⟩ := h
  simp only at perm tri0 tri1 α0 α1 rowA rowB
  rw [← hs.idx] at perm tri0 tri1 α0 α1 rowA rowB
  have hne : ∀ j k, j < n → k < n → j ≠ k → st'.idx j ≠ st'.idx k := fun j k hj hk hjk e => hjk (perm.2 j k hj hk e)
  classical
  -- row `q` is eliminated at this step with a skipped entry
  let skip : Nat → Prop := fun q => (∃ k, i < k ∧ k < n ∧ q = st'.idx k) ∧ |st.a q i| ≤ tol
  have skipk : ∀ k, i < k → k < n → (skip (st'.idx k) ↔ |st.a (st'.idx k) i| ≤ tol) := fun k h1 h2 =>
    ⟨fun h => h.2, fun h => ⟨⟨k, h1, h2, rfl⟩, h⟩⟩
  have skipn : ∀ k, k ≤ i → ¬ skip (st'.idx k) := by
    rintro k hk ⟨⟨k', h1, h2, e⟩, -⟩
    have := perm.2 k k' (by omega) h2 e
    omega
  -- the pivot row in terms of the new one
  have prow : ∀ j, j < n → st.a (st'.idx i) j = st.a (st'.idx i) i * st'.a (st'.idx i) j := by
    intro j hj
    rw [hs.prow j]
    have := hs.piv
    by_cases hji : j = i
    · subst hji; simp
    · rw [if_neg hji]
      by_cases hlt : i < j
      · rw [if_pos ⟨hlt, hj⟩]; field_simp
      · rw [if_neg (by omega), tri0 i hi j (by omega) (by omega)]; simp
  have pb : st.b (st'.idx i) = st.a (st'.idx i) i • st'.b (st'.idx i) := by
    rw [hs.pb, smul_smul]
    have := hs.piv
    rw [mul_one_div_cancel this, one_smul]
  have new0 : ∀ j, j < i → st'.a (st'.idx i) j = 0 := by
    intro j hj
    rw [hs.prow j, if_neg (by omega), if_neg (by omega)]
    exact tri0 i hi j hj hj
  refine ⟨fun q j => if skip q ∧ j = i then st.a q i else E q j, fun q => if q = st'.idx i then st.a q i else α q,
    fun q t => if t = i then (if skip q then 0 else st.a q i) else mlt q t, ?_⟩
  constructor
  · exact perm
  · intro k hk j hj hjk
    rcases lt_trichotomy k i with hki | hki | hki
    · rw [(hs.urow k hki).1]; exact tri0 k hk j (by omega) hjk
    · subst hki; exact new0 j hjk
    · rw [hs.erow k hki hk]
      by_cases hji : j = i
      · rw [if_pos hji]
      · rw [if_neg hji, if_neg (by omega)]; exact tri0 k hk j (by omega) hjk
  · intro k hk
    by_cases hki : k = i
    · subst hki; rw [hs.prow]; simp
    · rw [(hs.urow k (by omega)).1]; exact tri1 k (by omega)
  · intro q j
    split
    · rename_i hc; exact hc.1.2
    · exact Eb q j
  · intro q j hj
    rw [if_neg (by omega)]; exact E0 q j (by omega)
  · intro k hk
    by_cases hki : k = i
    · subst hki; rw [if_pos rfl]; exact hs.piv
    · rw [if_neg (hne k i hk hi hki)]; exact α0 k hk
  · intro k hk hkn
    rw [if_neg (hne k i hkn hi (by omega))]; exact α1 k (by omega) hkn
  · intro k hk j hj
    have hsum : ∀ c : Nat, c ≤ i → ∑ t ∈ range c, (if t = i then (if skip (st'.idx k) then 0 else st.a (st'.idx k) i)
        else mlt (st'.idx k) t) * st'.a (st'.idx t) j = ∑ t ∈ range c, mlt (st'.idx k) t * st.a (st'.idx t) j := by
      intro c hc
      refine sum_congr rfl fun t ht => ?_
      rw [mem_range] at ht
      rw [if_neg (by omega), (hs.urow t (by omega)).1]
    rcases lt_trichotomy k i with hki | hki | hki
    · rw [if_neg (fun h => skipn k (by omega) h.1), rowA k hk j hj, if_neg (hne k i hk hi (by omega)),
        (hs.urow k hki).1, show min k i = k by omega, show min k (i+1) = k by omega, hsum k (by omega)]
    · subst hki
      rw [if_neg (fun h => skipn k (by omega) h.1), rowA k hk j hj, if_pos rfl, α1 k (le_refl _) hk,
        show min k k = k by omega, show min k (k+1) = k by omega, hsum k (by omega), one_mul, prow j hj]
    · rw [if_neg (hne k i hk hi (by omega)), show min k (i+1) = i + 1 by omega, sum_range_succ, hsum i (le_refl _), if_pos rfl]
      have hA := rowA k hk j hj
      rw [α1 k (by omega) hk, show min k i = i by omega, one_mul] at hA
      rw [α1 k (by omega) hk, one_mul, hs.erow k hki hk j]
      by_cases hsk : |st.a (st'.idx k) i| ≤ tol
      · have hsk' := (skipk k hki hk).2 hsk
        rw [if_pos hsk']
        by_cases hji : j = i
        · subst hji
          rw [if_pos ⟨hsk', rfl⟩, if_pos rfl]
          rw [E0 _ _ (le_refl _)] at hA
          linear_combination hA
        · rw [if_neg (by tauto), if_neg hji, if_neg (by tauto)]
          linear_combination hA
      · have hsk' : ¬ skip (st'.idx k) := fun h => hsk ((skipk k hki hk).1 h)
        rw [if_neg hsk', if_neg (by tauto)]
        by_cases hji : j = i
        · subst hji
          rw [if_pos rfl, hs.prow j, if_pos rfl]
          linear_combination hA
        · rw [if_neg hji]
          by_cases hlt : i < j
          · rw [if_pos ⟨hlt, hj, hsk⟩]
            linear_combination hA
          · rw [if_neg (by omega), new0 j (by omega)]
            linear_combination hA
  · intro k hk
    have hsum : ∀ c : Nat, c ≤ i → ∑ t ∈ range c, (if t = i then (if skip (st'.idx k) then 0 else st.a (st'.idx k) i)
        else mlt (st'.idx k) t) • st'.b (st'.idx t) = ∑ t ∈ range c, mlt (st'.idx k) t • st.b (st'.idx t) := by
      intro c hc
      refine sum_congr rfl fun t ht => ?_
      rw [mem_range] at ht
      rw [if_neg (by omega), (hs.urow t (by omega)).2]
    rcases lt_trichotomy k i with hki | hki | hki
    · rw [rowB k hk, if_neg (hne k i hk hi (by omega)),
        (hs.urow k hki).2, show min k i = k by omega, show min k (i+1) = k by omega, hsum k (by omega)]
    · subst hki
      rw [rowB k hk, if_pos rfl, α1 k (le_refl _) hk,
        show min k k = k by omega, show min k (k+1) = k by omega, hsum k (by omega), one_smul, pb]
    · rw [if_neg (hne k i hk hi (by omega)), show min k (i+1) = i + 1 by omega, sum_range_succ, hsum i (le_refl _), if_pos rfl]
      have hB := rowB k hk
      rw [α1 k (by omega) hk, show min k i = i by omega, one_smul] at hB
      rw [α1 k (by omega) hk, one_smul, hs.eb k hki hk, hB]
      by_cases hsk : |st.a (st'.idx k) i| ≤ tol
      · rw [if_pos ((skipk k hki hk).2 hsk), if_pos hsk]
        simp
      · have hsk' : ¬ skip (st'.idx k) := fun h => hsk ((skipk k hki hk).1 h)
        rw [if_neg hsk', if_neg hsk]
        abel

/-! ## Backward substitution -/

omit [LinearOrder K] [IsStrictOrderedRing K] in
theorem backward_spec (n : Nat) (st : GS K V) (ans : Nat → V) :
    ∀ i, i < n → backward n st ans i = st.b (st.idx i) - ∑ j ∈ Ico (i+1) n, st.a (st.idx i) j • backward n st ans j := by
  have := forDown_inv (lo := 0) (hi := n) (fun i (ans : Nat → V) =>
      set1 ans i (forDown (i+1) n (fun j x => x - st.a (st.idx i) j • ans j) (st.b (st.idx i)))) ans
    (fun k t => ∀ i, k ≤ i → i < n → t i = st.b (st.idx i) - ∑ j ∈ Ico (i+1) n, st.a (st.idx i) j • t j)
    (Nat.zero_le _) (by intro i h1 h2; omega)
    (by
      intro k t _ hk h i hi hin
      have hs : ∀ l, k ≤ l → ∑ j ∈ Ico (l+1) n, st.a (st.idx i) j • set1 t k (forDown (k+1) n (fun j x => x - st.a (st.idx k) j • t j) (st.b (st.idx k))) j
          = ∑ j ∈ Ico (l+1) n, st.a (st.idx i) j • t j := by
        intro l hl
        refine sum_congr rfl fun j hj => ?_
        rw [mem_Ico] at hj
        rw [set1_ne _ _ (by omega)]
      rw [hs i hi]
      by_cases hik : i = k
      · subst hik
        rw [set1_same, forDown_sub _ _ _ _ (by omega)]
      · rw [set1_ne _ _ hik]; exact h i (by omega) hin)
  exact fun i hi => this i (Nat.zero_le _) hi

/-- The answer of the backward substitution solves the triangular system. -/
theorem backward_solves {tol : K} {n : Nat} {A0 : Nat → Nat → K} {B0 : Nat → V} {st : GS K V} {E : Nat → Nat → K}
    {α : Nat → K} {mlt : Nat → Nat → K} (h : GInv tol n n A0 B0 st E α mlt) (ans : Nat → V) :
    ∀ k, k < n → ∑ j ∈ range n, st.a (st.idx k) j • backward n st ans j = st.b (st.idx k) := by
  intro k hk
  rw [range_eq_Ico, ← sum_Ico_consecutive _ (Nat.zero_le k) hk.le, sum_eq_zero, zero_add, sum_eq_sum_Ico_succ_bot hk,
    h.tri1 k hk, one_smul]
  · conv_lhs => rw [backward_spec n st ans k hk]
    abel
  · intro j hj
    rw [mem_Ico] at hj
    rw [h.tri0 k hk j (by omega) (by omega), zero_smul]

/-- A solution of the current rows solves the perturbed original system. -/
theorem ginv_solves {tol : K} {n i : Nat} {A0 : Nat → Nat → K} {B0 : Nat → V} {st : GS K V} {E : Nat → Nat → K}
    {α : Nat → K} {mlt : Nat → Nat → K} (h : GInv tol n i A0 B0 st E α mlt) (y : Nat → V)
    (hy : ∀ k, k < n → ∑ j ∈ range n, st.a (st.idx k) j • y j = st.b (st.idx k)) :
    ∀ k, k < n → ∑ j ∈ range n, (A0 (st.idx k) j - E (st.idx k) j) • y j = B0 (st.idx k) := by
  intro k hk
  have : ∀ j ∈ range n, (A0 (st.idx k) j - E (st.idx k) j) • y j = α (st.idx k) • (st.a (st.idx k) j • y j) +
      ∑ t ∈ range (min k i), mlt (st.idx k) t • (st.a (st.idx t) j • y j) := by
    intro j hj
    rw [h.rowA k hk j (mem_range.1 hj), add_smul, sum_smul, mul_smul]
    simp only [mul_smul]
  rw [sum_congr rfl this, sum_add_distrib, ← smul_sum, hy k hk, sum_comm, h.rowB k hk]
  congr 1
  refine sum_congr rfl fun t ht => ?_
  rw [mem_range] at ht
  rw [← smul_sum, hy t (by omega)]

theorem PermOn.surj {n : Nat} {idx : Nat → Nat} (h : PermOn n idx) {q : Nat} (hq : q < n) : ∃ k, k < n ∧ idx k = q := by
  have : Set.SurjOn idx (range n) (range n) := by
    refine Finset.surjOn_of_injOn_of_card_le idx ?_ ?_ (le_refl _)
    · intro k hk; simp only [coe_range, Set.mem_Iio] at hk ⊢; exact h.1 k hk
    · intro j hj k hk e
      simp only [coe_range, Set.mem_Iio] at hj hk
      exact h.2 j k hj hk e
  obtain ⟨k, hk, e⟩ := this (by simpa using hq : q ∈ ((range n : Finset Nat) : Set Nat))
  exact ⟨k, by simpa using hk, e⟩

/-! ## Balancing -/

theorem colmax_spec (rows i : Nat) (m : Nat → Nat → K) (s : Nat → K) (hr : 0 < rows) :
    ∃ x, (forUp 1 rows (fun j s => if |m j i| > s i then set1 s i |m j i| else s) (set1 s i |m 0 i|)) = set1 s i x ∧
      (∀ j, j < rows → |m j i| ≤ x) ∧ 0 ≤ x := by
  have := forUp_inv (lo := 1) (hi := rows) (fun j (s : Nat → K) => if |m j i| > s i then set1 s i |m j i| else s) (set1 s i |m 0 i|)
    (fun k t => ∃ x, t = set1 s i x ∧ (∀ j, j < k → |m j i| ≤ x) ∧ 0 ≤ x) hr
    ⟨_, rfl, by intro j hj; have : j = 0 := by omega
                rw [this], abs_nonneg _⟩
    (by
      rintro k t h1 h2 ⟨x, rfl, h3, h4⟩
      by_cases h : |m k i| > x
      · refine ⟨|m k i|, ?_, ?_, abs_nonneg _⟩
        · simp only [set1_same, h, if_true]
          funext j; unfold set1; split <;> rfl
        · intro j hj
          by_cases hjk : j = k
          · rw [hjk]
          · exact (h3 j (by omega)).trans h.le
      · refine ⟨x, by simp [h], ?_, h4⟩
        intro j hj
        by_cases hjk : j = k
        · rw [hjk]; exact not_lt.1 h
        · exact h3 j (by omega))
  exact this

/-- Column balancing scales every non-zero column by a positive factor to magnitude at most 1. -/
theorem colBalancing_spec (rows cols : Nat) (hr : 0 < rows) (m : Nat → Nat → K) (s : Nat → K) :
    ∀ j, j < cols →
      ((zMatColBalancingDST rows cols m s).2 j = 0 ∧ ∀ i, i < rows → m i j = 0 ∧ (zMatColBalancingDST rows cols m s).1 i j = 0) ∨
      (0 < (zMatColBalancingDST rows cols m s).2 j ∧ ∀ i, i < rows →
        (zMatColBalancingDST rows cols m s).1 i j = m i j * (zMatColBalancingDST rows cols m s).2 j ∧
        |(zMatColBalancingDST rows cols m s).1 i j| ≤ 1) := by
  have := forUp_inv (lo := 0) (hi := cols) (fun i (st : (Nat → Nat → K) × (Nat → K)) =>
    let s := set1 st.2 i |st.1 0 i|
    let s := forUp 1 rows (fun j s => if |st.1 j i| > s i then set1 s i |st.1 j i| else s) s
    if s i = 0 then (st.1, s)
    else
      let s := set1 s i (1 / s i)
      (forUp 0 rows (fun j m => set2 m j i (m j i * s i)) st.1, s)) (m, s)
    (fun k t => (∀ j, j < k → (t.2 j = 0 ∧ ∀ i, i < rows → m i j = 0 ∧ t.1 i j = 0) ∨
      (0 < t.2 j ∧ ∀ i, i < rows → t.1 i j = m i j * t.2 j ∧ |t.1 i j| ≤ 1)) ∧ (∀ j, k ≤ j → ∀ i, t.1 i j = m i j))
    (Nat.zero_le _) ⟨by intro j hj; omega, by intros; rfl⟩
    (by
      rintro k ⟨M, S⟩ - hk ⟨h1, h2⟩
      obtain ⟨x, hx, hx1, hx2⟩ := colmax_spec rows k M S hr
      simp only at h1 h2 ⊢
      rw [hx]
      simp only [set1_same]
      by_cases h0 : x = 0
      · rw [if_pos h0]
        refine ⟨?_, fun j hj i => h2 j (by omega) i⟩
        intro j hj
        by_cases hjk : j = k
        · subst hjk
          left
          refine ⟨by simp [h0], fun i hi => ?_⟩
          have := hx1 i hi
          rw [h0] at this
          have : M i j = 0 := abs_nonpos_iff.1 this
          simp only
          exact ⟨by rw [← h2 j (le_refl _) i]; exact this, this⟩
        · simp only
          rw [set1_ne _ _ hjk]
          exact h1 j (by omega)
      · rw [if_neg h0]
        have hpos : 0 < x := lt_of_le_of_ne hx2 (Ne.symm h0)
        have hc : forUp 0 rows (fun j m => set2 m j k (m j k * (1 / x))) M =
            fun i j => if j = k ∧ 0 ≤ i ∧ i < rows then M i k * (1 / x) else M i j := by
          refine forUp_col k (fun j m => m j k * (1 / x)) M _ ?_
          intro l t g1 g2 g3
          rw [g3 _ _ (by omega)]
        simp only [hc]
        refine ⟨?_, ?_⟩
        · intro j hj
          by_cases hjk : j = k
          · subst hjk
            right
            simp only [set1_same]
            refine ⟨by positivity, fun i hi => ?_⟩
            rw [if_pos ⟨trivial, Nat.zero_le _, hi⟩, h2 j (le_refl _) i]
            refine ⟨rfl, ?_⟩
            rw [abs_mul, abs_of_pos (by positivity : 0 < 1/x), mul_one_div, div_le_one hpos, ← h2 j (le_refl _) i]
            exact hx1 i hi
          · rw [set1_ne _ _ hjk]
            rw [set1_ne _ _ hjk]
            simp only [hjk, false_and, if_false]
            exact h1 j (by omega)
        · intro j hj i
          rw [if_neg (by omega)]
          exact h2 j (by omega) i)
  exact this.1

theorem absMax_spec (size : Nat) (row : Nat → K) (hs : 0 < size) :
    (∀ j, j < size → |row j| ≤ absMax size row) ∧ 0 ≤ absMax size row := by
  unfold absMax
  have := forUp_inv (lo := 1) (hi := size) (fun j (x : K) => if |row j| > x then |row j| else x) |row 0|
    (fun k x => (∀ j, j < k → |row j| ≤ x) ∧ 0 ≤ x) hs
    ⟨by intro j hj; have : j = 0 := by omega
        rw [this], abs_nonneg _⟩
    (by
      rintro k x h1 h2 ⟨h3, h4⟩
      by_cases h : |row k| > x
      · simp only [h, if_true]
        refine ⟨fun j hj => ?_, abs_nonneg _⟩
        by_cases hjk : j = k
        · rw [hjk]
        · exact (h3 j (by omega)).trans h.le
      · simp only [h, if_false]
        refine ⟨fun j hj => ?_, h4⟩
        by_cases hjk : j = k
        · rw [hjk]; exact not_lt.1 h
        · exact h3 j (by omega))
  exact this

/-- Row balancing divides every equation by a positive factor. -/
theorem rowBalancing_spec (rows cols : Nat) (hc : 0 < cols) (m : Nat → Nat → K) (b : Nat → V) :
    ∃ r : Nat → K, ∀ i, i < rows → 0 < r i ∧ (rowBalancingDST rows cols m b).2 i = (r i)⁻¹ • b i ∧
      ∀ j, j < cols → (rowBalancingDST rows cols m b).1 i j = m i j / r i := by
  have := forUp_inv (lo := 0) (hi := rows) (fun i (st : (Nat → Nat → K) × (Nat → V)) =>
    let tmp := absMax cols (st.1 i)
    if tmp = 0 then st
    else (forUp 0 cols (fun j m => set2 m i j (m i j / tmp)) st.1, set1 st.2 i (tmp⁻¹ • st.2 i))) (m, b)
    (fun k t => (∃ r : Nat → K, ∀ i, i < k → 0 < r i ∧ t.2 i = (r i)⁻¹ • b i ∧ ∀ j, j < cols → t.1 i j = m i j / r i) ∧
      (∀ i, k ≤ i → (∀ j, t.1 i j = m i j) ∧ t.2 i = b i)) (Nat.zero_le _)
    ⟨⟨fun _ => 1, by intro i hi; omega⟩, by intros; exact ⟨fun _ => rfl, rfl⟩⟩
    (by
      rintro k ⟨M, B⟩ - hk ⟨⟨r, h1⟩, h2⟩
      obtain ⟨x1, x2⟩ := absMax_spec cols (M k) hc
      generalize absMax cols (M k) = x at *
      simp only at h1 h2 x1 ⊢
      obtain ⟨u1, u2⟩ := h2 k (le_refl _)
      by_cases h0 : x = 0
      · simp only [h0, if_true]
        refine ⟨⟨set1 r k 1, ?_⟩, fun i hi => h2 i (by omega)⟩
        intro i hi
        by_cases hik : i = k
        · subst hik
          rw [set1_same]
          exact ⟨one_pos, by simp [u2], fun j hj => by rw [u1, div_one]⟩
        · rw [set1_ne _ _ hik]
          exact h1 i (by omega)
      · simp only [h0, if_false]
        have hr : forUp 0 cols (fun j m => set2 m k j (m k j / x)) M =
            fun i j => if i = k ∧ 0 ≤ j ∧ j < cols then M k j / x else M i j := by
          refine forUp_row k (fun j m => m k j / x) M _ ?_
          intro l t g1 g2 g3
          rw [g3 _ _ (by omega)]
        simp only [hr]
        refine ⟨⟨set1 r k x, ?_⟩, ?_⟩
        · intro i hi
          by_cases hik : i = k
          · subst hik
            simp only [set1_same]
            refine ⟨lt_of_le_of_ne x2 (Ne.symm h0), by rw [u2], fun j hj => ?_⟩
            rw [if_pos ⟨trivial, Nat.zero_le _, hj⟩, u1]
          · simp only [set1_ne _ _ hik, hik, false_and, if_false]
            exact h1 i (by omega)
        · intro i hi
          have hik : i ≠ k := by omega
          simp only [set1_ne _ _ hik, hik, false_and, if_false]
          exact h2 i (by omega))
  exact this.1

/-! ## Null vector at a zero pivot -/

theorem ginv_null {tol : K} {n i : Nat} {A0 : Nat → Nat → K} {B0 : Nat → V} {st : GS K V} {E : Nat → Nat → K} {α : Nat → K}
    {mlt : Nat → Nat → K} (hi : i < n) (h : GInv tol n i A0 B0 st E α mlt)
    (hz : ∀ k, i ≤ k → k < n → st.a (st.idx k) i = 0) :
    ∃ y : Nat → K, y i = 1 ∧ ∀ q, q < n → ∑ j ∈ range n, (A0 q j - E q j) * y j = 0 := by
  let st2 : GS K K := { a := st.a, b := fun q => - st.a q i, idx := st.idx }
  let y0 := backward i st2 (fun _ => 0)
  let y : Nat → K := fun j => if j < i then y0 j else if j = i then 1 else 0
  have hcur : ∀ k, k < n → ∑ j ∈ range n, st.a (st.idx k) j * y j = 0 := by
    intro k hk
    have e1 : ∑ j ∈ range n, st.a (st.idx k) j * y j = ∑ j ∈ range i, st.a (st.idx k) j * y0 j + st.a (st.idx k) i := by
      rw [range_eq_Ico, ← sum_Ico_consecutive _ (Nat.zero_le (i+1)) (by omega : i + 1 ≤ n), ← range_eq_Ico, sum_range_succ]
      have : ∑ j ∈ Ico (i+1) n, st.a (st.idx k) j * y j = 0 := by
        refine sum_eq_zero fun j hj => ?_
        rw [mem_Ico] at hj
        simp only [y]
        rw [if_neg (by omega), if_neg (by omega), mul_zero]
      rw [this, add_zero]
      congr 1
      · refine sum_congr rfl fun j hj => ?_
        rw [mem_range] at hj
        simp only [y, hj, if_true]
      · simp [y]
    rw [e1]
    by_cases hki : i ≤ k
    · rw [hz k hki hk, add_zero]
      refine sum_eq_zero fun j hj => ?_
      rw [mem_range] at hj
      rw [h.tri0 k hk j hj (by omega), zero_mul]
    · have hb := backward_spec i st2 (fun _ => 0) k (by omega)
      rw [range_eq_Ico, ← sum_Ico_consecutive _ (Nat.zero_le k) (by omega : k ≤ i), sum_eq_zero, zero_add,
        sum_eq_sum_Ico_succ_bot (by omega), h.tri1 k (by omega), one_mul]
      · change y0 k + _ + _ = 0
        rw [show y0 k = _ from hb]
        simp only [st2, smul_eq_mul, y0]
        ring
      · intro j hj
        rw [mem_Ico] at hj
        rw [h.tri0 k hk j (by omega) (by omega), zero_mul]
  refine ⟨y, by simp [y], ?_⟩
  intro q hq
  obtain ⟨k, hk, rfl⟩ := h.perm.surj hq
  have : ∀ j ∈ range n, (A0 (st.idx k) j - E (st.idx k) j) * y j = α (st.idx k) * (st.a (st.idx k) j * y j) +
      ∑ t ∈ range (min k i), mlt (st.idx k) t * (st.a (st.idx t) j * y j) := by
    intro j hj
    rw [h.rowA k hk j (mem_range.1 hj), add_mul, sum_mul, mul_assoc]
    simp only [mul_assoc]
  rw [sum_congr rfl this, sum_add_distrib, ← mul_sum, hcur k hk, sum_comm, mul_zero, zero_add]
  refine sum_eq_zero fun t ht => ?_
  rw [mem_range] at ht
  rw [← mul_sum, hcur t (by omega), mul_zero]

/-- The forward elimination either succeeds with the factorisation invariant or stops at a zero pivot with a null
vector of the perturbed matrix. -/
theorem forward_cases (tol : K) (ht : 0 ≤ tol) (n : Nat) (idx : Nat → Nat) (hidx : PermOn n idx) (A0 : Nat → Nat → K) (B0 : Nat → V) :
    (∃ st E α mlt, forUpM 0 n (forwardStep tol n) ({ a := A0, b := B0, idx := idx } : GS K V) = .ok st ∧
      GInv tol n n A0 B0 st E α mlt) ∨
    (forUpM 0 n (forwardStep tol n) ({ a := A0, b := B0, idx := idx } : GS K V) = .fail ∧
      ∃ (E : Nat → Nat → K) (y : Nat → K) (i : Nat), (∀ q j, |E q j| ≤ tol) ∧ i < n ∧ y i = 1 ∧
        ∀ q, q < n → ∑ j ∈ range n, (A0 q j - E q j) * y j = 0) := by
  unfold forUpM
  rw [Nat.sub_zero]
  have H : ∀ k i (st : GS K V) (E : Nat → Nat → K) (α : Nat → K) (mlt : Nat → Nat → K), i + k = n → GInv tol n i A0 B0 st E α mlt →
      (∃ st' E α mlt, forNM k i (forwardStep tol n) st = .ok st' ∧ GInv tol n n A0 B0 st' E α mlt) ∨
      (forNM k i (forwardStep tol n) st = .fail ∧
      ∃ (E : Nat → Nat → K) (y : Nat → K) (i : Nat), (∀ q j, |E q j| ≤ tol) ∧ i < n ∧ y i = 1 ∧
        ∀ q, q < n → ∑ j ∈ range n, (A0 q j - E q j) * y j = 0) := by
    intro k
    induction k with
    | zero =>
      intro i st E α mlt hi h
      have : i = n := by omega
      subst this
      exact Or.inl ⟨st, E, α, mlt, rfl, h⟩
    | succ k ih =>
      intro i st E α mlt hi h
      rcases forwardStep_spec tol n i (by omega) st h.perm with ⟨h0, hf⟩ | ⟨st', hst, hs⟩
      · right
        refine ⟨by simp [forNM, hf, Res.bind], ?_⟩
        obtain ⟨-, -, -, hmax⟩ := zMatPivoting_props n st.a st.idx i i (by omega) h.perm
        obtain ⟨y, hy1, hy2⟩ := ginv_null (by omega) (ginv_pivot (by omega) h) (fun k hk hkn => by
          have := hmax k hk hkn
          rw [h0, abs_zero] at this
          exact abs_nonpos_iff.1 this)
        exact ⟨E, y, i, h.Eb, by omega, hy1, hy2⟩
      · obtain ⟨E', α', mlt', h'⟩ := ginv_step (by omega) h hs
        rcases ih (i+1) st' E' α' mlt' (by omega) h' with ⟨s2, E2, α2, m2, e, g⟩ | ⟨e, g⟩
        · exact Or.inl ⟨s2, E2, α2, m2, by simp [forNM, hst, Res.bind, e], g⟩
        · exact Or.inr ⟨by simp [forNM, hst, Res.bind, e], g⟩
  exact H n 0 _ _ _ _ (by omega) (ginv_init tol ht n idx hidx A0 B0)

/-! ## C14, C18: what the solvers guarantee -/

/-- Outcome of the elimination-based solvers for a tolerance `tol ≥ 0`: with positive equation factors `r` and column
factors `s` (zero only for columns that vanish), either an answer `x = s·y` is returned where `y` solves the balanced
system exactly up to a perturbation `E` of the balanced matrix with entries of magnitude at most `tol`, or failure is
reported and the perturbed balanced matrix has a non-trivial null vector.  Undefined behaviour does not occur. -/
theorem gaussSolveIdx_backward_error (tol : K) (ht : 0 ≤ tol) (n : Nat) (idx : Nat → Nat) (hidx : PermOn n idx) (A : Nat → Nat → K) (B ans : Nat → V) :
    ∃ (s r : Nat → K) (E : Nat → Nat → K), (∀ j, j < n → 0 ≤ s j ∧ (s j = 0 → ∀ i, i < n → A i j = 0)) ∧
      (∀ i, i < n → 0 < r i) ∧ (∀ i j, |E i j| ≤ tol) ∧
      ((∃ (x y : Nat → V) (idx' : Nat → Nat), gaussSolveIdx tol n idx A B ans = .ok (x, idx') ∧ PermOn n idx' ∧ (∀ j, j < n → x j = s j • y j) ∧
          ∀ i, i < n → ∑ j ∈ range n, (A i j * s j / r i - E i j) • y j = (r i)⁻¹ • B i) ∨
       (gaussSolveIdx tol n idx A B ans = .fail ∧ ∃ (y : Nat → K) (k : Nat), k < n ∧ y k = 1 ∧
          ∀ i, i < n → ∑ j ∈ range n, (A i j * s j / r i - E i j) * y j = 0)) := by
  rcases Nat.eq_zero_or_pos n with rfl | hn
  · exact ⟨fun _ => 0, fun _ => 1, fun _ _ => 0, by simp, by simp, by simp [ht], Or.inl ⟨ans, ans, idx, rfl, hidx, by simp, by simp⟩⟩
  · have hcb := colBalancing_spec n n hn A (fun _ => 0)
    generalize hAs : zMatColBalancingDST n n A (fun _ => (0:K)) = As at hcb
    obtain ⟨A1, s⟩ := As
    simp only at hcb
    obtain ⟨r, hr⟩ := rowBalancing_spec n n hn A1 B
    generalize hAb : rowBalancingDST n n A1 B = Ab at hr
    obtain ⟨A2, B2⟩ := Ab
    simp only at hr
    have hA2 : ∀ i, i < n → ∀ j, j < n → A2 i j = A i j * s j / r i := by
      intro i hi j hj
      rw [(hr i hi).2.2 j hj]
      rcases hcb j hj with ⟨h1, h2⟩ | ⟨h1, h2⟩
      · rw [(h2 i hi).1, (h2 i hi).2]; simp
      · rw [(h2 i hi).1]
    have hs : ∀ j, j < n → 0 ≤ s j ∧ (s j = 0 → ∀ i, i < n → A i j = 0) := by
      intro j hj
      rcases hcb j hj with ⟨h1, h2⟩ | ⟨h1, h2⟩
      · exact ⟨h1.ge, fun _ i hi => (h2 i hi).1⟩
      · exact ⟨h1.le, fun h => absurd h h1.ne'⟩
    rcases forward_cases tol ht n idx hidx A2 B2 with ⟨st, E, α, mlt, hf, hg⟩ | ⟨hf, E, y, k, hE, hk, hy1, hy2⟩
    · refine ⟨s, r, E, hs, fun i hi => (hr i hi).1, hg.Eb, Or.inl ?_⟩
      refine ⟨fun j => if 0 ≤ j ∧ j < n then s j • backward n st ans j else backward n st ans j, backward n st ans, st.idx, ?_, hg.perm, ?_, ?_⟩
      · unfold gaussSolveIdx
        simp only [hAs, hAb, hf, Res.bind]
        congr 2
        refine forUp_set1 (fun i ans => s i • ans i) _ _ ?_
        intro k t h1 h2 h3 h4
        rw [h4 k (by omega)]
      · intro j hj; simp [hj]
      · intro i hi
        obtain ⟨k, hk, rfl⟩ := hg.perm.surj hi
        have := ginv_solves hg (backward n st ans) (backward_solves hg ans) k hk
        rw [(hr _ hi).2.1] at this
        rw [← this]
        refine sum_congr rfl fun j hj => ?_
        rw [hA2 _ hi j (mem_range.1 hj)]
    · refine ⟨s, r, E, hs, fun i hi => (hr i hi).1, hE, Or.inr ⟨?_, y, k, hk, hy1, ?_⟩⟩
      · unfold gaussSolveIdx
        simp only [hAs, hAb, hf, Res.bind]
      · intro i hi
        rw [← hy2 i hi]
        refine sum_congr rfl fun j hj => ?_
        rw [hA2 _ hi j (mem_range.1 hj)]

theorem PermOn.id (n : Nat) : PermOn n (fun i => i) := by simp [PermOn]

theorem gaussSolve_backward_error (tol : K) (ht : 0 ≤ tol) (n : Nat) (A : Nat → Nat → K) (B ans : Nat → V) :
    ∃ (s r : Nat → K) (E : Nat → Nat → K), (∀ j, j < n → 0 ≤ s j ∧ (s j = 0 → ∀ i, i < n → A i j = 0)) ∧
      (∀ i, i < n → 0 < r i) ∧ (∀ i j, |E i j| ≤ tol) ∧
      ((∃ x y : Nat → V, gaussSolve tol n A B ans = .ok x ∧ (∀ j, j < n → x j = s j • y j) ∧
          ∀ i, i < n → ∑ j ∈ range n, (A i j * s j / r i - E i j) • y j = (r i)⁻¹ • B i) ∨
       (gaussSolve tol n A B ans = .fail ∧ ∃ (y : Nat → K) (k : Nat), k < n ∧ y k = 1 ∧
          ∀ i, i < n → ∑ j ∈ range n, (A i j * s j / r i - E i j) * y j = 0)) := by
  obtain ⟨s, r, E, h1, h2, h3, h4⟩ := gaussSolveIdx_backward_error tol ht n (fun i => i) (PermOn.id n) A B ans
  refine ⟨s, r, E, h1, h2, h3, ?_⟩
  rcases h4 with ⟨x, y, idx', e, _, h⟩ | ⟨e, h⟩
  · exact .inl ⟨x, y, by unfold gaussSolve; rw [e]; rfl, h⟩
  · exact .inr ⟨by unfold gaussSolve; rw [e]; rfl, h⟩

/-- `A` (restricted to `n × n`) has a non-trivial null vector. -/
def Singular (n : Nat) (A : Nat → Nat → K) : Prop :=
  ∃ z : Nat → K, (∃ j, j < n ∧ z j ≠ 0) ∧ ∀ i, i < n → ∑ j ∈ range n, A i j * z j = 0

/-- Exact arithmetic without skipping (`tol = 0`): an answer is an exact solution for every right-hand column, and
failure is reported only for singular matrices. -/
theorem gaussSolveIdx_exact (n : Nat) (idx : Nat → Nat) (hidx : PermOn n idx) (A : Nat → Nat → K) (B ans : Nat → V) :
    (∃ x idx', gaussSolveIdx 0 n idx A B ans = .ok (x, idx') ∧ PermOn n idx' ∧ ∀ i, i < n → ∑ j ∈ range n, A i j • x j = B i) ∨
    (gaussSolveIdx 0 n idx A B ans = .fail ∧ Singular n A) := by
  obtain ⟨s, r, E, hs, hr, hE, h⟩ := gaussSolveIdx_backward_error 0 (le_refl _) n idx hidx A B ans
  have hE0 : ∀ i j, E i j = 0 := fun i j => abs_nonpos_iff.1 (hE i j)
  rcases h with ⟨x, y, idx', e, hp', hx, hsol⟩ | ⟨e, y, k, hk, hy1, hy2⟩
  · left
    refine ⟨x, idx', e, hp', fun i hi => ?_⟩
    have h1 := congrArg (fun v => r i • v) (hsol i hi)
    beta_reduce at h1
    rw [smul_smul, mul_inv_cancel₀ (hr i hi).ne', one_smul, smul_sum] at h1
    rw [← h1]
    refine sum_congr rfl fun j hj => ?_
    rw [hx j (mem_range.1 hj), hE0, sub_zero, smul_smul, smul_smul, mul_div_cancel₀ _ (hr i hi).ne']
  · right
    refine ⟨e, ?_⟩
    by_cases hz : ∃ j, j < n ∧ s j = 0
    · obtain ⟨j, hj, h0⟩ := hz
      refine ⟨fun l => if l = j then 1 else 0, ⟨j, hj, by simp⟩, fun i hi => ?_⟩
      refine sum_eq_zero fun l hl => ?_
      by_cases hlj : l = j
      · subst hlj; rw [(hs l hj).2 h0 i hi, zero_mul]
      · simp [hlj]
    · refine ⟨fun j => s j * y j, ⟨k, hk, ?_⟩, fun i hi => ?_⟩
      · beta_reduce; rw [hy1, mul_one]; exact fun h => hz ⟨k, hk, h⟩
      · have h1 := congrArg (fun v => r i * v) (hy2 i hi)
        beta_reduce at h1
        rw [mul_zero, mul_sum] at h1
        rw [← h1]
        refine sum_congr rfl fun j hj => ?_
        rw [hE0, sub_zero]
        have := (hr i hi).ne'
        field_simp

theorem gaussSolve_exact (n : Nat) (A : Nat → Nat → K) (B ans : Nat → V) :
    (∃ x, gaussSolve 0 n A B ans = .ok x ∧ ∀ i, i < n → ∑ j ∈ range n, A i j • x j = B i) ∨
    (gaussSolve 0 n A B ans = .fail ∧ Singular n A) := by
  rcases gaussSolveIdx_exact n (fun i => i) (PermOn.id n) A B ans with ⟨x, idx', e, _, h⟩ | ⟨e, h⟩
  · exact .inl ⟨x, by unfold gaussSolve; rw [e]; rfl, h⟩
  · exact .inr ⟨by unfold gaussSolve; rw [e]; rfl, h⟩

/-- A singular matrix has no right inverse, so the matrix solver must fail on the identity. -/
theorem gaussSolve_singular_fail (n : Nat) (A : Nat → Nat → K) (hA : Singular n A) (w : Nat) (hw : n ≤ w)
    (ans : Nat → Fin w → K) : gaussSolve 0 n A (fun i (j : Fin w) => if i = j.val then (1:K) else 0) ans = .fail := by
  rcases gaussSolve_exact n A (fun i (j : Fin w) => if i = j.val then (1:K) else 0) ans with ⟨x, e, hx⟩ | ⟨e, -⟩
  · exfalso
    -- `A X = I` makes `A` surjective on `K^n`, hence injective
    obtain ⟨z, ⟨k, hk, hzk⟩, hz⟩ := hA
    let M : Matrix (Fin n) (Fin n) K := Matrix.of fun i j => A i j
    let X : Matrix (Fin n) (Fin n) K := Matrix.of fun i j => x i ⟨j, by omega⟩
    have hMX : M * X = 1 := by
      ext i j
      rw [Matrix.mul_apply, Matrix.one_apply]
      have := congrFun (hx i i.2) ⟨j, by omega⟩
      simp only [Finset.sum_apply, Pi.smul_apply, smul_eq_mul] at this
      rw [Finset.sum_range] at this
      simp only [M, X, Matrix.of_apply]
      rw [this]
      simp [Fin.ext_iff]
    have hXM : X * M = 1 := mul_eq_one_comm.1 hMX
    let zv : Fin n → K := fun j => z j
    have hMz : M.mulVec zv = 0 := by
      ext i
      simp only [Matrix.mulVec, dotProduct, M, zv, Matrix.of_apply, Pi.zero_apply]
      have := hz i i.2
      rwa [Finset.sum_range] at this
    have : zv = 0 := by
      have := congrArg X.mulVec hMz
      rwa [Matrix.mulVec_mulVec, hXM, Matrix.one_mulVec, Matrix.mulVec_zero] at this
    exact hzk (congrFun this ⟨k, hk⟩)
  · exact e

/-- **C14** `zLESolveGauss` in exact arithmetic (`zTOL` so small that no non-zero entry is skipped): it returns a
solution of `A x = b`, or fails on a singular `A`; in particular it answers for every invertible `A`. -/
theorem zLESolveGauss_correct (n : Nat) (A : Nat → Nat → K) (b ans : Nat → K) :
    (∃ x, zLESolveGauss 0 n A b ans = .ok x ∧ ∀ i, i < n → ∑ j ∈ range n, A i j * x j = b i) ∨
    (zLESolveGauss 0 n A b ans = .fail ∧ Singular n A) := by
  have := gaussSolve_exact n A b ans
  simp only [smul_eq_mul] at this
  exact this

/-- **C14** with a positive tolerance: backward error of the answer. -/
theorem zLESolveGauss_backward_error (tol : K) (ht : 0 ≤ tol) (n : Nat) (A : Nat → Nat → K) (b ans x : Nat → K)
    (h : zLESolveGauss tol n A b ans = .ok x) :
    ∃ (s r : Nat → K) (E : Nat → Nat → K) (y : Nat → K), (∀ j, j < n → 0 ≤ s j ∧ (s j = 0 → ∀ i, i < n → A i j = 0)) ∧
      (∀ i, i < n → 0 < r i) ∧ (∀ i j, |E i j| ≤ tol) ∧ (∀ j, j < n → x j = s j * y j) ∧
      ∀ i, i < n → ∑ j ∈ range n, (A i j * s j / r i - E i j) * y j = b i / r i := by
  obtain ⟨s, r, E, hs, hr, hE, h'⟩ := gaussSolve_backward_error tol ht n A b ans
  rcases h' with ⟨x', y, e, hx, hsol⟩ | ⟨e, -⟩
  · have : x' = x := by
      unfold zLESolveGauss at h; rw [e] at h; injection h
    subst this
    refine ⟨s, r, E, y, hs, hr, hE, hx, fun i hi => ?_⟩
    have := hsol i hi
    simp only [smul_eq_mul] at this
    rw [this]; rw [div_eq_inv_mul]
  · unfold zLESolveGauss at h; rw [e] at h; cases h

/-- **C18** `zMulInvMatMat`: the returned `X` satisfies `M1 X = M2`, or failure is reported for a singular `M1`. -/
theorem zMulInvMatMat_correct (n w : Nat) (m1 m2 m : Nat → Nat → K) :
    (∃ x, zMulInvMatMat 0 n w m1 m2 m = .ok x ∧ ∀ i, i < n → ∀ j : Fin w, ∑ k ∈ range n, m1 i k * x k j = m2 i j) ∨
    (zMulInvMatMat 0 n w m1 m2 m = .fail ∧ Singular n m1) := by
  rcases gaussSolve_exact n m1 (fun i (j : Fin w) => m2 i j) (fun i (j : Fin w) => m i j) with ⟨x, e, hx⟩ | h
  · left
    refine ⟨x, e, fun i hi j => ?_⟩
    have := congrFun (hx i hi) j
    simpa [Finset.sum_apply] using this
  · exact Or.inr h

/-- `zMulInvMatMatAndVec` solves for the matrix and the vector at once. -/
theorem zMulInvMatMatAndVec_correct (n w : Nat) (m1 m2 : Nat → Nat → K) (v : Nat → K) (ma : Nat → Fin w → K) (va : Nat → K) :
    (∃ x, zMulInvMatMatAndVec 0 n w m1 m2 v ma va = .ok x ∧
      (∀ i, i < n → ∀ j : Fin w, ∑ k ∈ range n, m1 i k * (x k).1 j = m2 i j) ∧
      (∀ i, i < n → ∑ k ∈ range n, m1 i k * (x k).2 = v i)) ∨
    (zMulInvMatMatAndVec 0 n w m1 m2 v ma va = .fail ∧ Singular n m1) := by
  rcases gaussSolve_exact n m1 (fun i => ((fun j : Fin w => m2 i j), v i)) (fun i => (ma i, va i)) with ⟨x, e, hx⟩ | h
  · left
    refine ⟨x, e, fun i hi j => ?_, fun i hi => ?_⟩
    · have := congrArg (fun p => p.1 j) (hx i hi)
      simpa [Prod.fst_sum, Finset.sum_apply] using this
    · have := congrArg (fun p => p.2) (hx i hi)
      simpa [Prod.snd_sum] using this
  · exact Or.inr h

/-- **C18, partial.** `zMatInv` returns a right inverse (hence the inverse) of every non-singular matrix.
Missing: failure is not reported for singular matrices, see `zMatInv_singular_wrong`. -/
theorem zMatInv_correct_partial (n : Nat) (m : Nat → Nat → K) (hm : ¬ Singular n m) :
    ∃ x, zMatInv 0 n m = .ok x ∧ ∀ i, i < n → ∀ j : Fin n, ∑ k ∈ range n, m i k * x k j = if i = j.val then 1 else 0 := by
  unfold zMatInv
  by_cases h1 : n = 1
  · subst h1
    have h0 : m 0 0 ≠ 0 := by
      intro h0
      refine hm ⟨fun _ => 1, ⟨0, by omega, one_ne_zero⟩, fun i hi => ?_⟩
      have : i = 0 := by omega
      subst this
      simp [h0]
    refine ⟨fun _ _ => 1 / m 0 0, by simp [h0], fun i hi j => ?_⟩
    have : i = 0 := by omega
    subst this
    have : j = 0 := Fin.fin_one_eq_zero j
    subst this
    simp [h0]
  · simp only [h1, if_false]
    rcases zMulInvMatMat_correct n n m (fun i j => if i = j then 1 else 0) (fun i j => if i = j then 1 else 0) with ⟨x, e, hx⟩ | ⟨_, h⟩
    · exact ⟨x, by rw [e], hx⟩
    · exact absurd h hm

/-- **C18 is violated.** For every singular matrix of size at least 2 `zMatInv` reports success and hands back the
identity matrix. -/
theorem zMatInv_singular_wrong (n : Nat) (hn : n ≠ 1) (m : Nat → Nat → K) (hm : Singular n m) :
    zMatInv 0 n m = .ok fun i j => if i = j.val then 1 else 0 := by
  unfold zMatInv
  simp only [hn, if_false]
  have : zMulInvMatMat 0 n n m (fun i j => if i = j then 1 else 0) (fun i j => if i = j then 1 else 0) = .fail :=
    gaussSolve_singular_fail n m hm n (le_refl _) _
  rw [this]

/-- Singular and non-singular 2×2 matrices exist. -/
example : Singular 2 (fun _ _ => (1:ℚ)) := by
  refine ⟨fun j => if j = 0 then 1 else -1, ⟨0, by omega, by simp⟩, fun i _ => ?_⟩
  simp [sum_range_succ]
example : ¬ Singular 2 (fun i j => if i = j then (2:ℚ) else 0) := by
  rintro ⟨z, ⟨j, hj, hz⟩, h⟩
  have := h j hj
  interval_cases j <;> simp [sum_range_succ] at this <;> exact hz this

end Zm.LE
