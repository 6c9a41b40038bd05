import Verif.Model.MDMem
import Mathlib.Algebra.Order.Ring.Rat
import Mathlib.Data.List.Perm.Basic
import Mathlib.Data.List.Count
import Mathlib.Tactic.Ring

/-! # C229: memory of the linear programs of two variables -/

set_option linter.unusedSectionVars false

namespace Zm.MDMem
open MD (Cell Ext fin VG Code Out)
variable {K : Type*} [Field K] [LinearOrder K] [IsStrictOrderedRing K]

/-- The cells of the pool that the lists of one side reach: those in the pool, and two for each pair. -/
def ptrs (s : Side K) : List (Ptr K) := s.pool ++ s.pairs.flatMap fun q => [q.p1, q.p2]

/-- The blocks reached from one side. -/
def owned (s : Side K) : List Nat := s.list.map (·.id) ++ ((ptrs s).map (·.id) ++ s.pairs.map (·.id))

/-- The blocks that are live are those of the side and those in `R`, each once; every constraint is pointed to exactly once. -/
structure SInv (s : Side K) (h : Hp) (R : List Nat) : Prop where
  perm : h.live.Perm (owned s ++ R)
  ptr : ((ptrs s).map (·.cell)).Perm s.list
  nodup : h.live.Nodup
  fresh : ∀ p ∈ h.live, p < h.next

/-- The function for the median: it gives an element of a list that is not empty, and the list in another order. -/
def MedOk (med : List (PairC K) → Option (PairC K × List (PairC K))) : Prop :=
  (∀ l q l', med l = some (q, l') → q ∈ l ∧ l'.Perm l) ∧ ∀ l, med l = none → l = []

theorem free_ok {h : Hp} {x : Nat} {L : List Nat} (hp : h.live.Perm (x :: L)) :
    ∃ h', free h x = .ok h' ∧ h'.live.Perm L ∧ h'.next = h.next ∧ h'.t = h.t := by
  refine ⟨{ h with live := h.live.erase x }, ?_, ?_, rfl, rfl⟩
  · unfold free
    rw [if_pos (hp.mem_iff.2 (List.mem_cons_self ..))]
  · have := hp.erase x
    rwa [List.erase_cons_head] at this

theorem freeAll_ok : ∀ (ps : List Nat) {h : Hp} {L : List Nat}, h.live.Perm (ps ++ L) →
    ∃ h', freeAll ps h = .ok h' ∧ h'.live.Perm L ∧ h'.next = h.next
  | [], h, L, hp => ⟨h, rfl, hp, rfl⟩
  | p :: ps, h, L, hp => by
    obtain ⟨h1, e1, p1, n1, _⟩ := free_ok hp
    obtain ⟨h2, e2, p2, n2⟩ := freeAll_ok ps p1
    exact ⟨h2, by unfold freeAll; rw [e1]; exact e2, p2, n2.trans n1⟩

theorem need_ok {h : Hp} {ps : List Nat} (hp : ∀ p ∈ ps, p ∈ h.live) : need h ps = .ok () := if_pos hp

theorem purge_ok {list : List (Cell K)} {c : Cell K} {h : Hp} {L : List Nat} (hc : c ∈ list) (hp : h.live.Perm (c.id :: L)) :
    ∃ h', purge list c h = .ok (list.erase c, h') ∧ h'.live.Perm L ∧ h'.next = h.next ∧ h'.t = h.t := by
  obtain ⟨h', e, p, n, t⟩ := free_ok hp
  exact ⟨h', by unfold purge; rw [if_pos hc, e]; rfl, p, n, t⟩

theorem alloc_some {avail : Nat → Bool} {h : Hp} {id : Nat} (e : (alloc avail h).1 = some id) :
    id = h.next ∧ (alloc avail h).2 = ⟨h.t + 1, h.next + 1, h.next :: h.live⟩ := by
  unfold alloc at *
  by_cases c : avail h.t
  · rw [if_pos c] at *
    simp only [Option.some.injEq] at e
    exact ⟨e.symm, rfl⟩
  · rw [if_neg c] at e; simp at e

theorem alloc_none {avail : Nat → Bool} {h : Hp} (e : (alloc avail h).1 = none) : (alloc avail h).2 = { h with t := h.t + 1 } := by
  unfold alloc at *
  by_cases c : avail h.t
  · rw [if_pos c] at e; simp at e
  · rw [if_neg c]

theorem SInv.mk' {s : Side K} {h h' : Hp} {R R' : List Nat} {s' : Side K} (i : SInv s h R) (hp : h'.live.Perm (owned s' ++ R')) (hn : h'.next = h.next)
    (hptr : ((ptrs s').map (·.cell)).Perm s'.list) (hsub : ∃ L, h.live.Perm (L ++ h'.live)) : SInv s' h' R' := by
  obtain ⟨L, hL⟩ := hsub
  refine ⟨hp, hptr, ?_, ?_⟩
  · exact (List.nodup_append.1 (hL.nodup_iff.1 i.nodup)).2.1
  · intro p hp'
    rw [hn]
    exact i.fresh p (hL.mem_iff.2 (List.mem_append_right _ hp'))

/-- A constraint and the cell that points to it are removed; the other cell goes to the pool. -/
theorem drop_ok {s : Side K} {h : Hp} {R : List Nat} (i : SInv s h R) {d k : Ptr K} {rest : List (Ptr K)} {x : List Nat} {s' : Side K}
    (hperm : (ptrs s).Perm (d :: k :: rest)) (hs' : (ptrs s').Perm (k :: rest)) (hl : s'.list = s.list.erase d.cell)
    (hx : (s.pairs.map (·.id)).Perm (x ++ s'.pairs.map (·.id))) :
    ∃ h1 h2, purge s.list d.cell h = .ok (s.list.erase d.cell, h1) ∧ free h1 d.id = .ok h2 ∧ h2.live.Perm (x ++ (owned s' ++ R)) ∧ h2.next = h.next ∧
      ((ptrs s').map (·.cell)).Perm s'.list ∧ h.live.Perm ([d.cell.id, d.id] ++ h2.live) := by
  have hmem : d.cell ∈ s.list := i.ptr.mem_iff.1 (List.mem_map_of_mem (hperm.mem_iff.2 (List.mem_cons_self ..)))
  have hle : s.list.Perm (d.cell :: s.list.erase d.cell) := List.perm_cons_erase hmem
  have e0 : h.live.Perm (d.cell.id :: d.id :: (x ++ (owned s' ++ R))) := by
    refine i.perm.trans ?_
    rw [List.perm_iff_count]
    intro y
    have a1 := (hle.map (·.id)).count_eq y
    have a2 := (hperm.map (·.id)).count_eq y
    have a3 := (hs'.map (·.id)).count_eq y
    have a4 := hx.count_eq y
    simp only [owned, hl, List.count_append, List.map_cons, List.count_cons] at *
    omega
  obtain ⟨h1, e1, p1, n1, _⟩ := purge_ok hmem e0
  obtain ⟨h2, e2, p2, n2, _⟩ := free_ok p1
  refine ⟨h1, h2, e1, e2, p2, n2.trans n1, ?_, ?_⟩
  · have c1 : ((ptrs s').map (·.cell)).Perm ((k :: rest).map (·.cell)) := hs'.map _
    have c2 : (d.cell :: (k :: rest).map (·.cell)).Perm (d.cell :: s'.list) := by
      have : ((d :: k :: rest).map (·.cell)).Perm s.list := (hperm.map _).symm.trans i.ptr
      rw [hl]
      exact this.trans hle
    exact c1.trans (List.Perm.cons_inv c2)
  · exact e0.trans ((p2.symm.cons _).cons _)

theorem mem_live {s : Side K} {h : Hp} {R : List Nat} (i : SInv s h R) {p : Ptr K} (hp : p ∈ ptrs s) : p.id ∈ h.live ∧ p.cell.id ∈ h.live := by
  constructor
  · refine i.perm.mem_iff.2 ?_
    simp only [owned, List.mem_append]
    exact Or.inl (Or.inr (Or.inl (List.mem_map_of_mem hp)))
  · refine i.perm.mem_iff.2 ?_
    simp only [owned, List.mem_append]
    exact Or.inl (Or.inl (List.mem_map_of_mem (i.ptr.mem_iff.1 (List.mem_map_of_mem hp))))

theorem pairUp_ok (avail : Nat → Bool) (tol : K) (rule : K → K → Bool) (R : List Nat) : ∀ (n : Nat) (s : Side K) (h : Hp), SInv s h R →
    ∃ s' h', pairUp avail tol rule n s h = .ok (s', h') ∧ SInv s' h' R ∧ h.next ≤ h'.next
  | 0, s, h, i => ⟨s, h, rfl, i, le_refl _⟩
  | n + 1, s, h, i => by
    unfold pairUp
    match hpool : s.pool with
    | [] => exact ⟨s, h, by simp only [], i, le_refl _⟩
    | [a] => exact ⟨s, h, by simp only [], i, le_refl _⟩
    | a :: b :: pool =>
      simp only []
      have ha : a ∈ ptrs s := by simp [ptrs, hpool]
      have hb : b ∈ ptrs s := by simp [ptrs, hpool]
      rw [need_ok (by
        intro p hp
        simp only [List.mem_cons, List.not_mem_nil, or_false] at hp
        rcases hp with rfl | rfl | rfl | rfl
        · exact (mem_live i ha).1
        · exact (mem_live i hb).1
        · exact (mem_live i ha).2
        · exact (mem_live i hb).2)]
      simp only [Res.bind]
      cases hx : MD.inter tol a.cell b.cell with
      | none =>
        simp only []
        generalize hq : (if rule a.cell.y0 b.cell.y0 = true then (a, b) else (b, a)) = q
        have hperm : (ptrs s).Perm (q.1 :: q.2 :: (pool ++ s.pairs.flatMap fun q => [q.p1, q.p2])) := by
          unfold ptrs
          rw [hpool]
          by_cases c : rule a.cell.y0 b.cell.y0 = true
          · rw [if_pos c] at hq; subst hq; exact List.Perm.refl _
          · rw [if_neg c] at hq; subst hq; exact List.Perm.swap _ _ _
        obtain ⟨h1, h2, e1, e2, p2, n2, c2, l2⟩ := drop_ok (s' := { s with list := s.list.erase q.1.cell, pool := q.2 :: pool }) (x := []) i hperm
          (List.Perm.refl _) rfl (List.Perm.refl _)
        rw [e1]
        simp only [Res.bind, e2]
        obtain ⟨s', h', e', i', n'⟩ := pairUp_ok avail tol rule R n _ h2 (i.mk' p2 n2 c2 ⟨_, l2⟩)
        exact ⟨s', h', e', i', n2 ▸ n'⟩
      | some xy =>
        simp only []
        cases hm : (alloc avail h).1 with
        | none =>
          rw [alloc_none hm]
          refine ⟨_, _, rfl, ?_, le_refl _⟩
          have hperm : (ptrs ({ s with pool := b :: a :: pool } : Side K)).Perm (ptrs s) := by
            unfold ptrs
            simp only [hpool]
            exact List.Perm.swap _ _ _
          refine ⟨?_, ?_, i.nodup, i.fresh⟩
          · refine i.perm.trans ?_
            refine List.Perm.append_right _ ?_
            exact List.Perm.append_left _ (List.Perm.append_right _ (hperm.symm.map _))
          · exact (hperm.map _).trans i.ptr
        | some id =>
          obtain ⟨hid, h2⟩ := alloc_some hm
          rw [h2]
          subst hid
          have hperm : (ptrs ({ s with pool := pool, pairs := ⟨h.next, a, b, xy.1, xy.2⟩ :: s.pairs } : Side K)).Perm (ptrs s) := by
            unfold ptrs
            simp only [hpool, List.flatMap_cons]
            have : (pool ++ ([a, b] ++ s.pairs.flatMap fun q => [q.p1, q.p2])).Perm ([a, b] ++ pool ++ s.pairs.flatMap fun q => [q.p1, q.p2]) := by
              rw [← List.append_assoc]
              exact List.Perm.append_right _ List.perm_append_comm
            exact this
          have i' : SInv ({ s with pool := pool, pairs := ⟨h.next, a, b, xy.1, xy.2⟩ :: s.pairs } : Side K) ⟨h.t + 1, h.next + 1, h.next :: h.live⟩ R := by
            refine ⟨?_, (hperm.map _).trans i.ptr, ?_, ?_⟩
            · rw [List.perm_iff_count]
              intro y
              have a1 := (hperm.map (·.id)).count_eq y
              have a2 := i.perm.count_eq y
              simp only [owned, List.count_append, List.map_cons, List.count_cons] at *
              omega
            · refine List.nodup_cons.2 ⟨fun hm => ?_, i.nodup⟩
              exact absurd (i.fresh _ hm) (lt_irrefl _)
            · intro p hp
              rcases List.mem_cons.1 hp with rfl | hp
              · exact Nat.lt_succ_self _
              · exact Nat.lt_succ_of_lt (i.fresh p hp)
          obtain ⟨s', h', e', i'', n'⟩ := pairUp_ok avail tol rule R n _ _ i'
          exact ⟨s', h', e', i'', Nat.le_trans (Nat.le_succ _) n'⟩

theorem discardLoop_ok (skip : K → Bool) (worse : K → K → Bool) (R : List Nat) : ∀ (ps : List (PairC K)) (s : Side K) (h : Hp), SInv { s with pairs := ps ++ s.pairs } h R →
    ∃ s' h', discardLoop skip worse ps (s, h) = .ok (s', h') ∧ SInv s' h' R
  | [], s, h, i => ⟨s, h, rfl, i⟩
  | q :: ps, s, h, i => by
    unfold discardLoop discardStep
    have hq : q.id ∈ h.live := i.perm.mem_iff.2 (by simp [owned])
    rw [need_ok (by simpa using hq)]
    simp only [Res.bind]
    have hpp : (q :: ps ++ s.pairs).Perm (ps ++ q :: s.pairs) := List.perm_middle.symm
    by_cases hs : skip q.x = true
    · rw [if_pos hs]
      simp only [Res.bind]
      refine discardLoop_ok skip worse R ps { s with pairs := q :: s.pairs } h ?_
      have hperm : (ptrs ({ s with pairs := ps ++ q :: s.pairs } : Side K)).Perm (ptrs ({ s with pairs := q :: ps ++ s.pairs } : Side K)) :=
        List.Perm.append_left _ (List.Perm.flatMap_right _ hpp.symm)
      refine ⟨i.perm.trans (List.Perm.append_right _ ?_), (hperm.map _).trans i.ptr, i.nodup, i.fresh⟩
      refine List.Perm.append_left _ (List.Perm.append ?_ ?_)
      · exact hperm.symm.map _
      · exact hpp.map _
    · rw [if_neg hs]
      have ha : q.p1 ∈ ptrs ({ s with pairs := q :: ps ++ s.pairs } : Side K) := by simp [ptrs]
      have hb : q.p2 ∈ ptrs ({ s with pairs := q :: ps ++ s.pairs } : Side K) := by simp [ptrs]
      rw [need_ok (by
        intro p hp
        simp only [List.mem_cons, List.not_mem_nil, or_false] at hp
        rcases hp with rfl | rfl | rfl | rfl
        · exact (mem_live i ha).1
        · exact (mem_live i hb).1
        · exact (mem_live i ha).2
        · exact (mem_live i hb).2)]
      simp only [Res.bind]
      generalize hd : (if worse q.p1.cell.m q.p2.cell.m = true then (q.p1, q.p2) else (q.p2, q.p1)) = d
      have h0 : (ptrs ({ s with pairs := q :: ps ++ s.pairs } : Side K)).Perm (q.p1 :: q.p2 :: (s.pool ++ (ps ++ s.pairs).flatMap fun q => [q.p1, q.p2])) := by
        unfold ptrs
        simp only [List.cons_append, List.flatMap_cons]
        have : (s.pool ++ ([q.p1, q.p2] ++ (ps ++ s.pairs).flatMap fun q => [q.p1, q.p2])).Perm ([q.p1, q.p2] ++ s.pool ++ (ps ++ s.pairs).flatMap fun q => [q.p1, q.p2]) := by
          rw [← List.append_assoc]
          exact List.Perm.append_right _ List.perm_append_comm
        exact this
      have hperm : (ptrs ({ s with pairs := q :: ps ++ s.pairs } : Side K)).Perm (d.1 :: d.2 :: (s.pool ++ (ps ++ s.pairs).flatMap fun q => [q.p1, q.p2])) := by
        refine h0.trans ?_
        by_cases c : worse q.p1.cell.m q.p2.cell.m = true
        · rw [if_pos c] at hd; subst hd; exact List.Perm.refl _
        · rw [if_neg c] at hd; subst hd; exact List.Perm.swap _ _ _
      obtain ⟨h1, h2, e1, e2, p2, n2, c2, l2⟩ := drop_ok (s' := { list := s.list.erase d.1.cell, pool := d.2 :: s.pool, pairs := ps ++ s.pairs }) (x := [q.id]) i hperm
        (List.Perm.refl _) rfl (List.Perm.refl _)
      obtain ⟨h3, e3, p3, n3, _⟩ := free_ok p2
      simp only [] at e1
      rw [e1]
      simp only [Res.bind, e2, e3]
      refine discardLoop_ok skip worse R ps _ h3 ?_
      exact i.mk' p3 (n3.trans n2) c2 ⟨[d.1.cell.id, d.1.id] ++ [q.id], l2.trans (by
        rw [List.append_assoc]
        exact List.Perm.append_left _ (p2.trans (p3.symm.cons _)))⟩

/-- The invariant of a problem: both sides together own all live blocks but those in `R`. -/
def Inv (s : St K) (R : List Nat) : Prop := SInv s.up s.h (owned s.lo ++ R) ∧ SInv s.lo s.h (owned s.up ++ R)

theorem Inv.of_up {s : St K} {R : List Nat} {u : Side K} {h : Hp} (hl : ((ptrs s.lo).map (·.cell)).Perm s.lo.list) (i : SInv u h (owned s.lo ++ R)) :
    Inv { s with up := u, h := h } R := by
  refine ⟨i, ⟨?_, hl, i.nodup, i.fresh⟩⟩
  refine i.perm.trans ?_
  rw [← List.append_assoc, ← List.append_assoc]
  exact List.Perm.append_right _ List.perm_append_comm

theorem Inv.of_lo {s : St K} {R : List Nat} {l : Side K} {h : Hp} (hu : ((ptrs s.up).map (·.cell)).Perm s.up.list) (i : SInv l h (owned s.up ++ R)) :
    Inv { s with lo := l, h := h } R := by
  refine ⟨⟨?_, hu, i.nodup, i.fresh⟩, i⟩
  refine i.perm.trans ?_
  rw [← List.append_assoc, ← List.append_assoc]
  exact List.Perm.append_right _ List.perm_append_comm

theorem createPairs_ok (avail : Nat → Bool) (tol : K) {s : St K} {R : List Nat} (i : Inv s R) : ∃ s', createPairs avail tol s = .ok s' ∧ Inv s' R ∧ s'.dat = s.dat := by
  unfold createPairs
  obtain ⟨u, h1, e1, i1, _⟩ := pairUp_ok avail tol (fun a b => decide (a > b)) _ s.up.pool.length s.up s.h i.1
  rw [e1]
  simp only [Res.bind]
  have j1 := Inv.of_up i.2.ptr i1
  obtain ⟨l, h2, e2, i2, _⟩ := pairUp_ok avail tol (fun a b => decide (a < b)) _ s.lo.pool.length s.lo h1 j1.2
  rw [e2]
  exact ⟨_, rfl, Inv.of_lo (s := { s with up := u, h := h1 }) i1.ptr i2, rfl⟩

theorem discardConstraint_ok (skip : K → Bool) (wu wl : K → K → Bool) {s : St K} {R : List Nat} (i : Inv s R) :
    ∃ s', discardConstraint s skip wu wl = .ok s' ∧ Inv s' R := by
  unfold discardConstraint
  have rev : ∀ {t : Side K} {h : Hp} {Q : List Nat}, SInv t h Q → SInv ({ t with pairs := t.pairs.reverse ++ [] } : Side K) h Q := by
    intro t h Q j
    rw [List.append_nil]
    have hperm : (ptrs ({ t with pairs := t.pairs.reverse } : Side K)).Perm (ptrs t) :=
      List.Perm.append_left _ (List.Perm.flatMap_right _ (List.reverse_perm _))
    refine ⟨j.perm.trans (List.Perm.append_right _ ?_), (hperm.map _).trans j.ptr, j.nodup, j.fresh⟩
    exact List.Perm.append_left _ (List.Perm.append (hperm.symm.map _) ((List.reverse_perm _).symm.map _))
  obtain ⟨u, h1, e1, i1⟩ := discardLoop_ok skip wu _ s.up.pairs.reverse { s.up with pairs := [] } s.h (rev i.1)
  rw [e1]
  simp only [Res.bind]
  have j1 := Inv.of_up i.2.ptr i1
  obtain ⟨l, h2, e2, i2⟩ := discardLoop_ok skip wl _ s.lo.pairs.reverse { s.lo with pairs := [] } h1 (rev j1.2)
  rw [e2]
  exact ⟨_, rfl, Inv.of_lo (s := { s with up := u, h := h1 }) i1.ptr i2⟩

theorem cells_live {s : St K} {R : List Nat} (i : Inv s R) : ∀ p ∈ cells s, p ∈ s.h.live := by
  intro p hp
  refine i.1.perm.mem_iff.2 ?_
  simp only [cells, List.map_append, List.mem_append] at hp
  simp only [owned, List.mem_append]
  tauto

theorem finishDirect_ok (tol : K) {s : St K} {R : List Nat} (i : Inv s R) : finishDirect tol s = .ok (MD.finishDirect tol s.view, s) := by
  unfold finishDirect
  rw [need_ok (cells_live i)]
  rfl

theorem pairs_perm {s : Side K} {h : Hp} {R : List Nat} {l : List (PairC K)} (i : SInv s h R) (hl : l.Perm s.pairs) : SInv { s with pairs := l } h R := by
  have hperm : (ptrs ({ s with pairs := l } : Side K)).Perm (ptrs s) := List.Perm.append_left _ (List.Perm.flatMap_right _ hl)
  refine ⟨i.perm.trans (List.Perm.append_right _ ?_), (hperm.map _).trans i.ptr, i.nodup, i.fresh⟩
  exact List.Perm.append_left _ (List.Perm.append (hperm.symm.map _) (hl.symm.map _))

theorem chooseMedian_ok {med : List (PairC K) → Option (PairC K × List (PairC K))} (hm : MedOk med) {s : St K} {R : List Nat} (i : Inv s R) {q : PairC K} {s' : St K}
    (e : chooseMedian med s = some (q, s')) : Inv s' R ∧ q.id ∈ s'.h.live := by
  unfold chooseMedian at e
  cases h1 : med s.lo.pairs with
  | some r =>
    obtain ⟨q', l⟩ := r
    rw [h1] at e
    simp only [Option.some.injEq, Prod.mk.injEq] at e
    obtain ⟨rfl, rfl⟩ := e
    obtain ⟨hq, hl⟩ := hm.1 _ _ _ h1
    refine ⟨Inv.of_lo i.1.ptr (pairs_perm i.2 hl), i.2.perm.mem_iff.2 ?_⟩
    simp only [owned, List.mem_append]
    exact Or.inl (Or.inr (Or.inr (List.mem_map_of_mem hq)))
  | none =>
    rw [h1] at e
    simp only [] at e
    cases h2 : med s.up.pairs with
    | some r =>
      obtain ⟨q', l⟩ := r
      rw [h2] at e
      simp only [Option.some.injEq, Prod.mk.injEq] at e
      obtain ⟨rfl, rfl⟩ := e
      obtain ⟨hq, hl⟩ := hm.1 _ _ _ h2
      refine ⟨Inv.of_up i.2.ptr (pairs_perm i.1 hl), i.1.perm.mem_iff.2 ?_⟩
      simp only [owned, List.mem_append]
      exact Or.inl (Or.inr (Or.inr (List.mem_map_of_mem hq)))
    | none => rw [h2] at e; simp at e

theorem solveLoop_ok (avail : Nat → Bool) (tol : K) {med : List (PairC K) → Option (PairC K × List (PairC K))} (hm : MedOk med) {R : List Nat} : ∀ (n : Nat) (s : St K), Inv s R →
    ∃ o s', solveLoop avail tol med n s = .ok (o, s') ∧ Inv s' R
  | 0, s, i => ⟨_, s, rfl, i⟩
  | n + 1, s, i => by
    unfold solveLoop
    by_cases hc : s.up.list.length + s.lo.list.length > 4
    · rw [if_pos hc]
      obtain ⟨s1, e1, i1, _⟩ := createPairs_ok avail tol i
      rw [e1]
      simp only [Res.bind]
      cases hq : chooseMedian med s1 with
      | none => exact ⟨_, s1, finishDirect_ok tol i1, i1⟩
      | some r =>
        obtain ⟨q, s2⟩ := r
        obtain ⟨i2, hl⟩ := chooseMedian_ok hm i1 hq
        simp only []
        unfold turn
        rw [need_ok (by
          intro p hp
          rcases List.mem_cons.1 hp with rfl | hp
          · exact hl
          · exact cells_live i2 p hp)]
        simp only [Res.bind]
        cases MD.decideRegion q.x (MD.upperGrad tol s2.up.list q.x) (MD.lowerGrad tol s2.lo.list q.x) with
        | found x y => exact ⟨_, s2, rfl, i2⟩
        | unsolvable => exact ⟨_, s2, rfl, i2⟩
        | xmin x =>
          obtain ⟨s3, e3, i3⟩ := discardConstraint_ok (fun z => decide (z > x)) (fun a b => decide (a > b)) (fun a b => decide (a < b))
            (s := { s2 with dat := { s2.dat with xmin := fin x } }) i2
          simp only [smallerX, e3, Res.bind]
          exact solveLoop_ok avail tol hm n s3 i3
        | xmax x =>
          obtain ⟨s3, e3, i3⟩ := discardConstraint_ok (fun z => decide (z < x)) (fun a b => decide (a < b)) (fun a b => decide (a > b))
            (s := { s2 with dat := { s2.dat with xmax := fin x } }) i2
          simp only [greaterX, e3, Res.bind]
          exact solveLoop_ok avail tol hm n s3 i3
    · rw [if_neg hc]
      exact ⟨_, s, finishDirect_ok tol i, i⟩

theorem setFlags_inv {s : St K} {R : List Nat} (i : Inv s R) : Inv (setFlags s) R := i

theorem addLine_inv (tol : K) {s : St K} {R : List Nat} (i : Inv s R) (up : Bool) (m y0 : K) :
    Inv (addLine tol s up m y0 s.h.next (s.h.next + 1) ⟨s.h.t + 1 + 1, s.h.next + 1 + 1, (s.h.next + 1) :: s.h.next :: s.h.live⟩) R := by
  have nod : ((s.h.next + 1) :: s.h.next :: s.h.live).Nodup := by
    refine List.nodup_cons.2 ⟨fun hm => ?_, List.nodup_cons.2 ⟨fun hm => absurd (i.1.fresh _ hm) (lt_irrefl _), i.1.nodup⟩⟩
    rcases List.mem_cons.1 hm with h | h
    · omega
    · have := i.1.fresh _ h; omega
  have fr : ∀ p ∈ (s.h.next + 1) :: s.h.next :: s.h.live, p < s.h.next + 1 + 1 := by
    intro p hp
    simp only [List.mem_cons] at hp
    rcases hp with rfl | rfl | hp
    · omega
    · omega
    · have := i.1.fresh _ hp; omega
  have key : ∀ {t : Side K} {Q : List Nat} {h : Hp}, SInv t s.h Q → h.live = (s.h.next + 1) :: s.h.next :: s.h.live → h.next = s.h.next + 1 + 1 →
      SInv ({ t with list := ⟨s.h.next, m, y0⟩ :: t.list, pool := ⟨s.h.next + 1, ⟨s.h.next, m, y0⟩⟩ :: t.pool } : Side K) h Q := by
    intro t Q h j hl hn
    refine ⟨?_, ?_, hl ▸ nod, by rw [hl, hn]; exact fr⟩
    · rw [hl, List.perm_iff_count]
      intro y
      have a2 := j.perm.count_eq y
      simp only [owned, ptrs, List.count_append, List.map_cons, List.count_cons, List.cons_append] at *
      omega
    · exact j.ptr.cons _
  unfold addLine
  cases up with
  | true =>
    rw [if_pos rfl]
    exact Inv.of_up (s := { s with dat := _ }) i.2.ptr (key i.1 rfl rfl)
  | false =>
    rw [if_neg (by simp)]
    exact Inv.of_lo (s := { s with dat := _ }) i.1.ptr (key i.2 rfl rfl)

theorem Inv.of_live {s : St K} {R : List Nat} (i : Inv s R) {h : Hp} (hl : h.live.Perm s.h.live) (hn : s.h.next ≤ h.next) : Inv { s with h := h } R :=
  ⟨⟨hl.trans i.1.perm, i.1.ptr, hl.nodup_iff.2 i.1.nodup, fun p hp => lt_of_lt_of_le (i.1.fresh p (hl.mem_iff.1 hp)) hn⟩,
   ⟨hl.trans i.2.perm, i.2.ptr, hl.nodup_iff.2 i.1.nodup, fun p hp => lt_of_lt_of_le (i.1.fresh p (hl.mem_iff.1 hp)) hn⟩⟩

/-- A line is added, or, when one of the two allocations fails, the problem stays as it was and nothing is lost: the live blocks are the same. -/
theorem zLPMegiddoDyerAddConstraint_ok (avail : Nat → Bool) (tol : K) {s : St K} {R : List Nat} (i : Inv s R) (a1 a2 b : K) :
    ∃ s' r, zLPMegiddoDyerAddConstraint avail tol s a1 a2 b = .ok (s', r) ∧ Inv s' R ∧
      (tol < |a2| → r = false → s'.up = s.up ∧ s'.lo = s.lo ∧ s'.dat = s.dat ∧ s'.h.live.Perm s.h.live) ∧
      (tol < |a2| → r = true → s'.h.live.length = s.h.live.length + 2) := by
  unfold zLPMegiddoDyerAddConstraint
  by_cases h2 : |a2| ≤ tol
  · rw [if_pos h2]
    have hn : ¬ tol < |a2| := not_lt.2 h2
    by_cases h1 : |a1| ≤ tol
    · rw [if_pos h1]; exact ⟨_, _, rfl, i, fun h => absurd h hn, fun h => absurd h hn⟩
    · rw [if_neg h1]; exact ⟨_, _, rfl, i, fun h => absurd h hn, fun h => absurd h hn⟩
  · rw [if_neg h2]
    by_cases hc : |s.dat.c2| ≤ tol
    · rw [if_pos hc]; exact ⟨_, _, rfl, i, fun _ _ => ⟨rfl, rfl, rfl, List.Perm.refl _⟩, fun _ h => by simp at h⟩
    · rw [if_neg hc]
      simp only []
      cases hx : (alloc avail s.h).1 with
      | none =>
        have e1 := alloc_none hx
        cases hy : (alloc avail (alloc avail s.h).2).1 with
        | none =>
          have e2 := alloc_none hy
          simp only [free?, Res.bind]
          rw [e2, e1]
          exact ⟨_, _, rfl, i.of_live (List.Perm.refl _) (le_refl _), fun _ _ => ⟨rfl, rfl, rfl, List.Perm.refl _⟩, fun _ h => by simp at h⟩
        | some q =>
          obtain ⟨hq, e2⟩ := alloc_some hy
          simp only [free?, Res.bind]
          rw [e2, hq, e1]
          obtain ⟨h', e3, p3, n3, _⟩ := free_ok (h := ⟨s.h.t + 1 + 1, s.h.next + 1, s.h.next :: s.h.live⟩) (List.Perm.refl _)
          simp only [e3, Res.bind]
          exact ⟨_, _, rfl, i.of_live p3 (by rw [n3]; exact Nat.le_succ _), fun _ _ => ⟨rfl, rfl, rfl, p3⟩, fun _ h => by simp at h⟩
      | some p =>
        obtain ⟨hp, e1⟩ := alloc_some hx
        cases hy : (alloc avail (alloc avail s.h).2).1 with
        | none =>
          have e2 := alloc_none hy
          simp only [free?]
          rw [e2, e1, hp]
          obtain ⟨h', e3, p3, n3, _⟩ := free_ok (h := ⟨s.h.t + 1 + 1, s.h.next + 1, s.h.next :: s.h.live⟩) (List.Perm.refl _)
          simp only [e3, Res.bind]
          exact ⟨_, _, rfl, i.of_live p3 (by rw [n3]; exact Nat.le_succ _), fun _ _ => ⟨rfl, rfl, rfl, p3⟩, fun _ h => by simp at h⟩
        | some q =>
          obtain ⟨hq, e2⟩ := alloc_some hy
          simp only []
          rw [e2, hq, hp, e1]
          refine ⟨_, _, rfl, setFlags_inv (addLine_inv tol i _ _ _), fun _ h => by simp at h, fun _ _ => ?_⟩
          unfold addLine setFlags
          cases (lineOf s.dat a1 a2 b).1 <;> simp

theorem step_ok (avail : Nat → Bool) (tol : K) {med : List (PairC K) → Option (PairC K × List (PairC K))} (hm : MedOk med) {R : List Nat} {s : St K} (i : Inv s R) (o : Op K) :
    ∃ s', step avail tol med s o = .ok s' ∧ Inv s' R := by
  cases o with
  | cost c1 c2 => exact ⟨_, rfl, i⟩
  | add a1 a2 b =>
    obtain ⟨s', r, e, j, _⟩ := zLPMegiddoDyerAddConstraint_ok avail tol i a1 a2 b
    exact ⟨s', by simp only [step, e, Res.bind], j⟩
  | solve n =>
    simp only [step, zLPMegiddoDyerSolve]
    cases MD.check s.dat with
    | some e => exact ⟨s, rfl, i⟩
    | none =>
      obtain ⟨o, s', e, j⟩ := solveLoop_ok avail tol hm n s i
      exact ⟨s', by simp only [e, Res.bind], j⟩
  | direct =>
    simp only [step, zLPMegiddoDyerSolveDirect]
    cases MD.check s.dat with
    | some e => exact ⟨s, rfl, i⟩
    | none => exact ⟨s, by simp only [finishDirect_ok tol i, Res.bind], i⟩

theorem run_ok (avail : Nat → Bool) (tol : K) {med : List (PairC K) → Option (PairC K × List (PairC K))} (hm : MedOk med) {R : List Nat} : ∀ (os : List (Op K)) {s : St K}, Inv s R →
    ∃ s', run avail tol med os s = .ok s' ∧ Inv s' R
  | [], s, i => ⟨s, rfl, i⟩
  | o :: os, s, i => by
    obtain ⟨s1, e1, i1⟩ := step_ok avail tol hm i o
    obtain ⟨s2, e2, i2⟩ := run_ok avail tol hm os i1
    exact ⟨s2, by unfold run; rw [e1]; exact e2, i2⟩

/-- The addresses of the cells of the pool that pairs point to. -/
def inPairs (s : Side K) : List Nat := (s.pairs.flatMap fun q => [q.p1, q.p2]).map (·.id)

theorem destroy_ok {s : St K} {R : List Nat} (i : Inv s R) :
    ∃ s', zLPMegiddoDyerDestroy s = .ok s' ∧ s'.h.live.Perm (inPairs s.up ++ inPairs s.lo ++ R) := by
  unfold zLPMegiddoDyerDestroy listDestroy
  have h0 : s.h.live.Perm (s.up.list.map (·.id) ++ (s.lo.list.map (·.id) ++ (s.up.pool.map (·.id) ++ (s.lo.pool.map (·.id) ++ (s.up.pairs.map (·.id) ++
      (s.lo.pairs.map (·.id) ++ (inPairs s.up ++ inPairs s.lo ++ R))))))) := by
    refine i.1.perm.trans ?_
    rw [List.perm_iff_count]
    intro y
    simp only [owned, ptrs, inPairs, List.count_append, List.map_append]
    omega
  obtain ⟨h1, e1, p1, _⟩ := freeAll_ok _ h0
  obtain ⟨h2, e2, p2, _⟩ := freeAll_ok _ p1
  obtain ⟨h3, e3, p3, _⟩ := freeAll_ok _ p2
  obtain ⟨h4, e4, p4, _⟩ := freeAll_ok _ p3
  obtain ⟨h5, e5, p5, _⟩ := freeAll_ok _ p4
  obtain ⟨h6, e6, p6, _⟩ := freeAll_ok _ p5
  simp only [e1, e2, e3, e4, e5, e6, Res.bind]
  exact ⟨_, rfl, p6⟩

theorem init_inv (h : Hp) (hn : h.live.Nodup) (hf : ∀ p ∈ h.live, p < h.next) : Inv (zLPMegiddoDyerInit h : St K) h.live :=
  ⟨⟨List.Perm.refl _, List.Perm.refl _, hn, hf⟩, ⟨List.Perm.refl _, List.Perm.refl _, hn, hf⟩⟩

theorem inPairs_length (s : Side K) : (inPairs s).length = 2 * s.pairs.length := by
  unfold inPairs
  induction s.pairs with
  | nil => rfl
  | cons q l ih => simp only [List.flatMap_cons, List.map_append, List.length_append, ih, List.map_cons, List.map_nil, List.length_cons, List.length_nil]; omega

/-- **C229.** Whatever calls are made, in whatever order, whatever allocations fail and whatever median is chosen: no block is used after its release and none is released twice.  After the
destruction the blocks that were not there before are exactly two for each pair that the calls have left in the problem. -/
theorem zLPMegiddoDyer_history (avail : Nat → Bool) (tol : K) {med : List (PairC K) → Option (PairC K × List (PairC K))} (hm : MedOk med) (os : List (Op K)) (h : Hp)
    (hn : h.live.Nodup) (hf : ∀ p ∈ h.live, p < h.next) :
    ∃ s s', run avail tol med os (zLPMegiddoDyerInit h) = .ok s ∧ zLPMegiddoDyerDestroy s = .ok s' ∧
      (∀ p ∈ h.live, p ∈ s'.h.live) ∧ s'.h.live.length = h.live.length + 2 * (s.up.pairs.length + s.lo.pairs.length) := by
  obtain ⟨s, e, i⟩ := run_ok avail tol hm os (init_inv h hn hf)
  obtain ⟨s', e', p⟩ := destroy_ok i
  refine ⟨s, s', e, e', fun q hq => p.mem_iff.2 (List.mem_append_right _ hq), ?_⟩
  rw [p.length_eq]
  simp only [List.length_append, inPairs_length]
  omega

theorem run_pairs (avail : Nat → Bool) (tol : K) (med : List (PairC K) → Option (PairC K × List (PairC K))) : ∀ (os : List (Op K)) (s s' : St K),
    (∀ n, Op.solve n ∉ os) → run avail tol med os s = .ok s' → s'.up.pairs = s.up.pairs ∧ s'.lo.pairs = s.lo.pairs
  | [], s, s', _, e => by
    unfold run at e
    injection e with e
    subst e
    exact ⟨rfl, rfl⟩
  | o :: os, s, s', ho, e => by
    have key : ∀ s1, step avail tol med s o = .ok s1 → s1.up.pairs = s.up.pairs ∧ s1.lo.pairs = s.lo.pairs := by
      intro s1 e1
      cases o with
      | cost c1 c2 => simp only [step, zLPMegiddoDyerSetCostCoefficient, Res.ok.injEq] at e1; subst e1; exact ⟨rfl, rfl⟩
      | solve n => exact absurd (List.mem_cons_self ..) (ho n)
      | direct =>
        simp only [step, zLPMegiddoDyerSolveDirect] at e1
        cases hc : MD.check s.dat with
        | some x => rw [hc] at e1; simp only [Res.bind, Res.ok.injEq] at e1; subst e1; exact ⟨rfl, rfl⟩
        | none =>
          rw [hc] at e1
          simp only [finishDirect] at e1
          unfold need at e1
          by_cases hl : ∀ p ∈ cells s, p ∈ s.h.live
          · rw [if_pos hl] at e1; simp only [Res.bind, Res.ok.injEq] at e1; subst e1; exact ⟨rfl, rfl⟩
          · rw [if_neg hl] at e1; simp [Res.bind] at e1
      | add a1 a2 b =>
        simp only [step] at e1
        unfold zLPMegiddoDyerAddConstraint at e1
        by_cases h2 : |a2| ≤ tol
        · rw [if_pos h2] at e1
          by_cases h1 : |a1| ≤ tol
          · rw [if_pos h1] at e1; simp only [Res.bind, Res.ok.injEq] at e1; subst e1; exact ⟨rfl, rfl⟩
          · rw [if_neg h1] at e1; simp only [Res.bind, Res.ok.injEq] at e1; subst e1; exact ⟨rfl, rfl⟩
        · rw [if_neg h2] at e1
          by_cases hc : |s.dat.c2| ≤ tol
          · rw [if_pos hc] at e1; simp only [Res.bind, Res.ok.injEq] at e1; subst e1; exact ⟨rfl, rfl⟩
          · rw [if_neg hc] at e1
            simp only [] at e1
            cases hx : (alloc avail s.h).1 with
            | some p =>
              cases hy : (alloc avail (alloc avail s.h).2).1 with
              | some q =>
                rw [hx, hy] at e1
                simp only [Res.bind, Res.ok.injEq] at e1
                subst e1
                unfold addLine setFlags
                cases (lineOf s.dat a1 a2 b).1 <;> simp
              | none =>
                rw [hx, hy] at e1
                simp only [free?] at e1
                cases hz : free (alloc avail (alloc avail s.h).2).2 p with
                | ok h1 => rw [hz] at e1; simp only [Res.bind, Res.ok.injEq] at e1; subst e1; exact ⟨rfl, rfl⟩
                | fail => rw [hz] at e1; simp [Res.bind] at e1
                | ub => rw [hz] at e1; simp [Res.bind] at e1
            | none =>
              cases hy : (alloc avail (alloc avail s.h).2).1 with
              | some q =>
                rw [hx, hy] at e1
                simp only [free?, Res.bind] at e1
                cases hz : free (alloc avail (alloc avail s.h).2).2 q with
                | ok h1 => rw [hz] at e1; simp only [Res.bind, Res.ok.injEq] at e1; subst e1; exact ⟨rfl, rfl⟩
                | fail => rw [hz] at e1; simp [Res.bind] at e1
                | ub => rw [hz] at e1; simp [Res.bind] at e1
              | none => rw [hx, hy] at e1; simp only [free?, Res.bind, Res.ok.injEq] at e1; subst e1; exact ⟨rfl, rfl⟩
    unfold run at e
    cases hs : step avail tol med s o with
    | ok s1 =>
      rw [hs] at e
      simp only [Res.bind] at e
      obtain ⟨k1, k2⟩ := key s1 hs
      obtain ⟨r1, r2⟩ := run_pairs avail tol med os s1 s' (fun n hn => ho n (List.mem_cons_of_mem _ hn)) e
      exact ⟨r1.trans k1, r2.trans k2⟩
    | fail => rw [hs] at e; simp [Res.bind] at e
    | ub => rw [hs] at e; simp [Res.bind] at e

/-- Part of C229: a problem that is only solved by the direct method releases all its memory.  Missing is the method of Megiddo and Dyer, which violates the property. -/
theorem zLPMegiddoDyer_direct_partial (avail : Nat → Bool) (tol : K) {med : List (PairC K) → Option (PairC K × List (PairC K))} (hm : MedOk med) (os : List (Op K))
    (ho : ∀ n, Op.solve n ∉ os) :
    ∃ s s', run avail tol med os (zLPMegiddoDyerInit {}) = .ok s ∧ zLPMegiddoDyerDestroy s = .ok s' ∧ s'.h.live = [] := by
  obtain ⟨s, s', e, e', _, l⟩ := zLPMegiddoDyer_history avail tol hm os {} List.nodup_nil (by simp)
  obtain ⟨p1, p2⟩ := run_pairs avail tol med os _ s ho e
  refine ⟨s, s', e, e', List.length_eq_zero_iff.1 ?_⟩
  rw [l, p1, p2]
  rfl

/-- A median: the first element. -/
def medHead : List (PairC K) → Option (PairC K × List (PairC K))
  | [] => none
  | q :: l => some (q, q :: l)

theorem medHead_ok : MedOk (medHead : List (PairC K) → _) := by
  refine ⟨?_, ?_⟩
  · intro l q l' h
    cases l with
    | nil => simp [medHead] at h
    | cons a l =>
      simp only [medHead, Option.some.injEq, Prod.mk.injEq] at h
      obtain ⟨rfl, rfl⟩ := h
      exact ⟨List.mem_cons_self .., List.Perm.refl _⟩
  · intro l h
    cases l with
    | nil => rfl
    | cons a l => simp [medHead] at h

/-- Minimise x2 with x2 ≥ x1, x2 ≥ -x1 and three bounds from above. -/
def leakOps : List (Op ℚ) := [.cost 0 1, .add 1 (-1) 0, .add (-1) (-1) 0, .add 0 1 9, .add (-1) 1 9, .add 1 1 9, .solve 9]

/-- What a call answers. -/
def answerOf : Res (Out ℚ × St ℚ) → Option (Out ℚ × Nat)
  | .ok r => some (r.1, r.2.h.live.length)
  | _ => none

/-- The blocks left after a destruction. -/
def leftOf : Res (St ℚ) → Option Nat
  | .ok s => some s.h.live.length
  | _ => none

/-- **C229 is violated**: with memory enough, a problem with five lines is solved, at the origin, by the first turn; its destruction leaves the four cells that its two pairs point to. -/
theorem zLPMegiddoDyerDestroy_leak_violated :
    answerOf ((run (fun _ => true) 0 medHead (leakOps.take 6) (zLPMegiddoDyerInit {})).bind (zLPMegiddoDyerSolve (fun _ => true) 0 medHead 9)) = some (.solved 0 0 0, 12) ∧
    leftOf ((run (fun _ => true) 0 medHead leakOps (zLPMegiddoDyerInit {})).bind zLPMegiddoDyerDestroy) = some 4 := by
  decide +kernel

-- five lines, of which the third finds no memory for its cell of the pool: solved and destroyed, three blocks after the failure were released
example : leftOf ((run (fun t => t != 5) 0 medHead leakOps (zLPMegiddoDyerInit {})).bind fun s => .ok s) = some 8 := by decide +kernel
example : leftOf ((run (fun t => t != 5) 0 medHead leakOps (zLPMegiddoDyerInit {})).bind zLPMegiddoDyerDestroy) = some 0 := by decide +kernel
-- a pair that finds no memory: its cells go back to the pool
example : leftOf ((run (fun t => t != 10) 0 medHead leakOps (zLPMegiddoDyerInit {})).bind zLPMegiddoDyerDestroy) = some 2 := by decide +kernel
-- a turn that discards two of six constraints, with their cells of the pool and the two pairs
example : answerOf ((run (fun _ => true) 0 medHead [.cost 0 1, .add (-1) (-1) 0, .add 1 (-1) 4, .add (-2) (-1) 1, .add 0 1 9, .add 1 1 9, .add (-1) 1 9] (zLPMegiddoDyerInit {})).bind
    (zLPMegiddoDyerSolve (fun _ => true) 0 medHead 9)) = some (.solved 2 (-2) (-2), 8) := by decide +kernel
example : ∀ n, Op.solve n ∉ [Op.cost (0 : ℚ) 1, .add 1 (-1) 0, .direct] := by simp

end Zm.MDMem
