import Verif.Model.VecList
import Mathlib.Data.List.Perm.Basic
import Mathlib.Data.List.Nodup
import Mathlib.Tactic.Common

/-! # Lists of vectors (C201) -/

namespace Zm.VecList
open Zm

variable {K : Type*}

/-- Specification: what is in the list after a history, given which insertions succeeded; `x` are the numbers in the vectors of the user. -/
def spec : List (Op K) → List Bool → (Nat → List K) → List (List K) → List (List K)
  | .head v :: ops, b :: bs, x, l => spec ops bs x (if b then x v.b :: l else l)
  | .tail v :: ops, b :: bs, x, l => spec ops bs x (if b then l ++ [x v.b] else l)
  | .poke v y :: ops, _ :: bs, x, l => spec ops bs (fun i => if i = v.b then y else x i) l
  | _, _, _, l => l

/-- The numbers in a list. -/
def contents (s : St K) : List (List K) := s.l.map fun c => s.h.val c.v.b

/-- The blocks that are live: `ext` and those of the list, each of them once. -/
def Inv (ext : List Nat) (own : Cell → List Nat) (s : St K) : Prop :=
  s.h.live.Perm (ext ++ s.l.flatMap own) ∧ s.h.live.Nodup ∧ ∀ i ∈ s.h.live, i < s.h.next

/-- The blocks of a cell of a `zVecList`. -/
def ownAll (c : Cell) : List Nat := [c.c, c.v.s, c.v.b]

/-- The blocks of a cell of a `zVecAddrList`. -/
def ownCell (c : Cell) : List Nat := [c.c]

/-- A good heap: no block twice, none beyond the counter. -/
def Good (h : Heap K) : Prop := h.live.Nodup ∧ ∀ i ∈ h.live, i < h.next

theorem alloc_some (avail : Nat → Bool) (c : List K) (h : Heap K) (hg : Good h) (i : Nat) (e : (alloc avail c h).1 = some i) :
    (alloc avail c h).2.live = i :: h.live ∧ Good (alloc avail c h).2 ∧ i ∉ h.live ∧ (alloc avail c h).2.val i = c ∧ ∀ j, j ∈ h.live → (alloc avail c h).2.val j = h.val j := by
  unfold alloc at e ⊢
  by_cases a : avail h.next = true
  · rw [if_pos a] at e ⊢
    obtain rfl : h.next = i := by simpa using e
    have hn : h.next ∉ h.live := fun hm => absurd (hg.2 _ hm) (Nat.lt_irrefl _)
    refine ⟨rfl, ⟨List.nodup_cons.2 ⟨hn, hg.1⟩, ?_⟩, hn, if_pos rfl, fun j hj => if_neg (show ¬ j = h.next by rintro rfl; exact hn hj)⟩
    intro j hj
    rcases List.mem_cons.1 hj with rfl | hj
    · exact Nat.lt_succ_self _
    · exact Nat.lt_succ_of_lt (hg.2 j hj)
  · rw [if_neg a] at e
    cases e

theorem alloc_none (avail : Nat → Bool) (c : List K) (h : Heap K) (hg : Good h) (e : (alloc avail c h).1 = none) :
    (alloc avail c h).2.live = h.live ∧ Good (alloc avail c h).2 ∧ (alloc avail c h).2.val = h.val := by
  unfold alloc at e ⊢
  by_cases a : avail h.next = true
  · rw [if_pos a] at e
    cases e
  · rw [if_neg a]
    exact ⟨rfl, ⟨hg.1, fun j hj => Nat.lt_succ_of_lt (hg.2 j hj)⟩, rfl⟩

theorem free_head (i : Nat) (h : Heap K) (l : List Nat) (hg : Good h) (e : h.live.Perm (i :: l)) : ∃ h', free i h = .ok h' ∧ h'.live.Perm l ∧ Good h' ∧ h'.val = h.val := by
  have hi : i ∈ h.live := by rw [e.mem_iff]; simp
  refine ⟨_, if_pos hi, ?_, ⟨hg.1.erase i, fun j hj => hg.2 j (List.mem_of_mem_erase hj)⟩, rfl⟩
  simpa using e.erase i

/-- What cloning does. -/
theorem vecClone_spec (avail : Nat → Bool) (v : V) (h : Heap K) (hg : Good h) (hs : v.s ∈ h.live) (hb : v.b ∈ h.live) :
    (∃ h', vecClone avail v h = .ok (none, h') ∧ h'.live.Perm h.live ∧ Good h' ∧ ∀ j ∈ h.live, h'.val j = h.val j) ∨
    ∃ w h', vecClone avail v h = .ok (some w, h') ∧ h'.live.Perm (w.s :: w.b :: h.live) ∧ Good h' ∧ (∀ j ∈ h.live, h'.val j = h.val j) ∧ h'.val w.b = h.val v.b := by
  unfold vecClone
  rw [if_pos ⟨hs, hb⟩]
  dsimp only
  cases e : (alloc avail ([] : List K) h).1 with
  | none =>
    obtain ⟨h1, h2, h3⟩ := alloc_none avail [] h hg e
    exact Or.inl ⟨_, rfl, by rw [h1], h2, fun j _ => by rw [h3]⟩
  | some i =>
    obtain ⟨h1, h2, h3, -, h5⟩ := alloc_some avail [] h hg i e
    dsimp only
    cases e' : (alloc avail (h.val v.b) (alloc avail ([] : List K) h).2).1 with
    | none =>
      obtain ⟨g1, g2, g3⟩ := alloc_none avail (h.val v.b) _ h2 e'
      obtain ⟨h', f1, f2, f3, f4⟩ := free_head i _ h.live g2 (by rw [g1, h1])
      exact Or.inl ⟨h', by dsimp only; rw [f1]; rfl, f2, f3, fun j hj => by rw [f4, g3, h5 j hj]⟩
    | some k =>
      obtain ⟨g1, g2, g3, g4, g5⟩ := alloc_some avail (h.val v.b) _ h2 k e'
      refine Or.inr ⟨⟨i, k⟩, _, rfl, ?_, g2, fun j hj => ?_, g4⟩
      · rw [g1, h1]
        exact List.Perm.swap _ _ _
      · rw [g5 j (by rw [h1]; exact List.mem_cons_of_mem _ hj), h5 j hj]

/-- What creating a cell with a copy does. -/
theorem cellCreate_copy (avail : Nat → Bool) (v : V) (h : Heap K) (hg : Good h) (hs : v.s ∈ h.live) (hb : v.b ∈ h.live) :
    (∃ h', cellCreate avail v true h = .ok (none, h') ∧ h'.live.Perm h.live ∧ Good h' ∧ ∀ j ∈ h.live, h'.val j = h.val j) ∨
    ∃ c h', cellCreate avail v true h = .ok (some c, h') ∧ h'.live.Perm (ownAll c ++ h.live) ∧ Good h' ∧ (∀ j ∈ h.live, h'.val j = h.val j) ∧ h'.val c.v.b = h.val v.b := by
  unfold cellCreate
  dsimp only
  cases e : (alloc avail ([] : List K) h).1 with
  | none =>
    obtain ⟨h1, h2, h3⟩ := alloc_none avail [] h hg e
    exact Or.inl ⟨_, rfl, by rw [h1], h2, fun j _ => by rw [h3]⟩
  | some i =>
    obtain ⟨h1, h2, h3, -, h5⟩ := alloc_some avail [] h hg i e
    dsimp only
    rw [if_pos rfl]
    rcases vecClone_spec avail v _ h2 (by rw [h1]; exact List.mem_cons_of_mem _ hs) (by rw [h1]; exact List.mem_cons_of_mem _ hb) with ⟨h', q1, q2, q3, q4⟩ | ⟨w, h', q1, q2, q3, q4, q5⟩
    · rw [q1]
      simp only [Res.bind]
      obtain ⟨h'', f1, f2, f3, f4⟩ := free_head i h' h.live q3 (by rw [← h1]; exact q2)
      rw [f1]
      exact Or.inl ⟨h'', rfl, f2, f3, fun j hj => by rw [f4, q4 j (by rw [h1]; exact List.mem_cons_of_mem _ hj), h5 j hj]⟩
    · rw [q1]
      simp only [Res.bind]
      refine Or.inr ⟨⟨i, w⟩, h', rfl, ?_, q3, fun j hj => by rw [q4 j (by rw [h1]; exact List.mem_cons_of_mem _ hj), h5 j hj], by rw [q5, h5 _ hb]⟩
      refine q2.trans ?_
      rw [h1]
      show (w.s :: w.b :: i :: h.live).Perm (i :: w.s :: w.b :: h.live)
      exact (List.Perm.cons _ (List.Perm.swap _ _ _)).trans (List.Perm.swap _ _ _)

/-- What creating a cell with a reference does. -/
theorem cellCreate_ref (avail : Nat → Bool) (v : V) (h : Heap K) (hg : Good h) :
    (∃ h', cellCreate avail v false h = .ok (none, h') ∧ h'.live.Perm h.live ∧ Good h' ∧ ∀ j ∈ h.live, h'.val j = h.val j) ∨
    ∃ c h', cellCreate avail v false h = .ok (some c, h') ∧ h'.live.Perm (ownCell c ++ h.live) ∧ Good h' ∧ (∀ j ∈ h.live, h'.val j = h.val j) ∧ c.v = v := by
  unfold cellCreate
  dsimp only
  cases e : (alloc avail ([] : List K) h).1 with
  | none =>
    obtain ⟨h1, h2, h3⟩ := alloc_none avail [] h hg e
    exact Or.inl ⟨_, rfl, by rw [h1], h2, fun j _ => by rw [h3]⟩
  | some i =>
    obtain ⟨h1, h2, h3, -, h5⟩ := alloc_some avail [] h hg i e
    exact Or.inr ⟨⟨i, v⟩, _, rfl, by rw [h1]; rfl, h2, h5, rfl⟩

/-- The vectors of the user that a call refers to are live. -/
def Op.Uses (ext : List Nat) : Op K → Prop
  | .head v => v.s ∈ ext ∧ v.b ∈ ext
  | .tail v => v.s ∈ ext ∧ v.b ∈ ext
  | .poke v _ => v.b ∈ ext

theorem contents_same {ext : List Nat} {s : St K} (hi : Inv ext ownAll s) (h' : Heap K) (hv : ∀ j ∈ s.h.live, h'.val j = s.h.val j) : (s.l.map fun c => h'.val c.v.b) = contents s := by
  unfold contents
  refine List.map_congr_left fun c hc => hv _ ?_
  rw [hi.1.mem_iff]
  refine List.mem_append_right _ (List.mem_flatMap.2 ⟨c, hc, ?_⟩)
  simp [ownAll]

/-- C201, copies: whichever allocations fail, in every history of insertions at both ends and of changes to the vectors of the user by the user
- nothing undefined happens,
- the list holds what the vectors contained when they were inserted, in the order of insertion,
- the live blocks are those of the user and three for every cell: insertions that fail leave nothing behind. -/
theorem list_copies (avail : Nat → Bool) (ext : List Nat) (ops : List (Op K)) (s : St K) (hi : Inv ext ownAll s) (hu : ∀ o ∈ ops, o.Uses ext) (x : Nat → List K) (hx : ∀ i ∈ ext, s.h.val i = x i) :
    ∃ bs s', run avail true ops s = .ok (bs, s') ∧ bs.length = ops.length ∧ contents s' = spec ops bs x (contents s) ∧ Inv ext ownAll s' := by
  induction ops generalizing s x with
  | nil => exact ⟨[], s, rfl, rfl, rfl, hi⟩
  | cons o ops ih =>
    have hu' : ∀ o ∈ ops, o.Uses ext := fun o ho => hu o (List.mem_cons_of_mem _ ho)
    have huo := hu o (by simp)
    have hext : ∀ i ∈ ext, i ∈ s.h.live := fun i h => hi.1.mem_iff.2 (List.mem_append_left _ h)
    cases o with
    | head v =>
      rcases cellCreate_copy avail v s.h hi.2 (hext _ huo.1) (hext _ huo.2) with ⟨h', q1, q2, q3, q4⟩ | ⟨c, h', q1, q2, q3, q4, q5⟩
      · obtain ⟨bs, s', r1, r2, r3, r4⟩ := ih ⟨s.l, h'⟩ ⟨q2.trans hi.1, q3⟩ hu' x fun i h => by rw [← hx i h]; exact q4 i (hext i h)
        refine ⟨false :: bs, s', ?_, by simp [r2], ?_, r4⟩
        · show (insertHead avail true v s).bind _ = _
          unfold insertHead
          rw [q1]
          simp only [Res.bind]
          rw [r1]
        · rw [r3]
          show spec ops bs x (s.l.map fun c => h'.val c.v.b) = spec ops bs x (contents s)
          rw [contents_same hi h' q4]
      · obtain ⟨bs, s', r1, r2, r3, r4⟩ := ih ⟨c :: s.l, h'⟩ ⟨by
            refine q2.trans ((List.Perm.append_left _ hi.1).trans ?_)
            show (ownAll c ++ (ext ++ s.l.flatMap ownAll)).Perm (ext ++ (c :: s.l).flatMap ownAll)
            rw [List.flatMap_cons, ← List.append_assoc, ← List.append_assoc]
            exact List.Perm.append_right _ List.perm_append_comm, q3⟩ hu' x fun i h => by rw [← hx i h]; exact q4 i (hext i h)
        refine ⟨true :: bs, s', ?_, by simp [r2], ?_, r4⟩
        · show (insertHead avail true v s).bind _ = _
          unfold insertHead
          rw [q1]
          simp only [Res.bind]
          rw [r1]
        · rw [r3]
          show spec ops bs x (h'.val c.v.b :: s.l.map fun c => h'.val c.v.b) = spec ops bs x (x v.b :: contents s)
          rw [contents_same hi h' q4, q5, hx _ huo.2]
    | tail v =>
      rcases cellCreate_copy avail v s.h hi.2 (hext _ huo.1) (hext _ huo.2) with ⟨h', q1, q2, q3, q4⟩ | ⟨c, h', q1, q2, q3, q4, q5⟩
      · obtain ⟨bs, s', r1, r2, r3, r4⟩ := ih ⟨s.l, h'⟩ ⟨q2.trans hi.1, q3⟩ hu' x fun i h => by rw [← hx i h]; exact q4 i (hext i h)
        refine ⟨false :: bs, s', ?_, by simp [r2], ?_, r4⟩
        · show (insertTail avail true v s).bind _ = _
          unfold insertTail
          rw [q1]
          simp only [Res.bind]
          rw [r1]
        · rw [r3]
          show spec ops bs x (s.l.map fun c => h'.val c.v.b) = spec ops bs x (contents s)
          rw [contents_same hi h' q4]
      · obtain ⟨bs, s', r1, r2, r3, r4⟩ := ih ⟨s.l ++ [c], h'⟩ ⟨by
            refine q2.trans ((List.Perm.append_left _ hi.1).trans ?_)
            show (ownAll c ++ (ext ++ s.l.flatMap ownAll)).Perm (ext ++ (s.l ++ [c]).flatMap ownAll)
            rw [List.flatMap_append, ← List.append_assoc ext]
            simp only [List.flatMap_cons, List.flatMap_nil, List.append_nil]
            exact List.perm_append_comm, q3⟩ hu' x fun i h => by rw [← hx i h]; exact q4 i (hext i h)
        refine ⟨true :: bs, s', ?_, by simp [r2], ?_, r4⟩
        · show (insertTail avail true v s).bind _ = _
          unfold insertTail
          rw [q1]
          simp only [Res.bind]
          rw [r1]
        · rw [r3]
          show spec ops bs x ((s.l ++ [c]).map fun c => h'.val c.v.b) = spec ops bs x (contents s ++ [x v.b])
          rw [List.map_append, contents_same hi h' q4, List.map_singleton, q5, hx _ huo.2]
    | poke v y =>
      have hvb : v.b ∈ s.h.live := hext _ huo
      obtain ⟨bs, s', r1, r2, r3, r4⟩ := ih ⟨s.l, { s.h with val := fun i => if i = v.b then y else s.h.val i }⟩ hi hu' (fun i => if i = v.b then y else x i) fun i h => by
        show (if i = v.b then y else s.h.val i) = _
        rw [hx i h]
      refine ⟨true :: bs, s', ?_, by simp [r2], ?_, r4⟩
      · show ((poke v y s.h).bind _).bind _ = _
        unfold poke
        rw [if_pos hvb]
        simp only [Res.bind]
        rw [r1]
      · rw [r3]
        show spec ops bs _ (s.l.map fun c => if c.v.b = v.b then y else s.h.val c.v.b) = spec ops bs _ (contents s)
        congr 1
        unfold contents
        refine List.map_congr_left fun c hc => if_neg fun e => ?_
        have hnd : (ext ++ s.l.flatMap ownAll).Nodup := hi.1.nodup_iff.1 hi.2.1
        have := (List.nodup_append.1 hnd).2.2 v.b huo c.v.b (List.mem_flatMap.2 ⟨c, hc, by simp [ownAll]⟩)
        exact this e.symm

/-- C201, references: in every history the live blocks are those of the user and one for every cell, and destroying the list leaves exactly those of the user. -/
theorem addrList_safe (avail : Nat → Bool) (ext : List Nat) (ops : List (Op K)) (s : St K) (hi : Inv ext ownCell s) (hu : ∀ o ∈ ops, o.Uses ext) :
    ∃ bs s', run avail false ops s = .ok (bs, s') ∧ Inv ext ownCell s' ∧ ∃ h', addrListDestroy s'.l s'.h = .ok h' ∧ h'.live.Perm ext ∧ h'.val = s'.h.val := by
  have key : ∃ bs s', run avail false ops s = .ok (bs, s') ∧ Inv ext ownCell s' := by
    induction ops generalizing s with
    | nil => exact ⟨[], s, rfl, hi⟩
    | cons o ops ih =>
      have hu' : ∀ o ∈ ops, o.Uses ext := fun o ho => hu o (List.mem_cons_of_mem _ ho)
      have huo := hu o (by simp)
      cases o with
      | head v =>
        rcases cellCreate_ref avail v s.h hi.2 with ⟨h', q1, q2, q3, q4⟩ | ⟨c, h', q1, q2, q3, q4, q5⟩
        · obtain ⟨bs, s', r1, r2⟩ := ih ⟨s.l, h'⟩ ⟨q2.trans hi.1, q3⟩ hu'
          refine ⟨false :: bs, s', ?_, r2⟩
          show (insertHead avail false v s).bind _ = _
          unfold insertHead
          rw [q1]
          simp only [Res.bind]
          rw [r1]
        · obtain ⟨bs, s', r1, r2⟩ := ih ⟨c :: s.l, h'⟩ ⟨by
            refine q2.trans ((List.Perm.append_left _ hi.1).trans ?_)
            show (ownCell c ++ (ext ++ s.l.flatMap ownCell)).Perm (ext ++ (c :: s.l).flatMap ownCell)
            rw [List.flatMap_cons, ← List.append_assoc, ← List.append_assoc]
            exact List.Perm.append_right _ List.perm_append_comm, q3⟩ hu'
          refine ⟨true :: bs, s', ?_, r2⟩
          show (insertHead avail false v s).bind _ = _
          unfold insertHead
          rw [q1]
          simp only [Res.bind]
          rw [r1]
      | tail v =>
        rcases cellCreate_ref avail v s.h hi.2 with ⟨h', q1, q2, q3, q4⟩ | ⟨c, h', q1, q2, q3, q4, q5⟩
        · obtain ⟨bs, s', r1, r2⟩ := ih ⟨s.l, h'⟩ ⟨q2.trans hi.1, q3⟩ hu'
          refine ⟨false :: bs, s', ?_, r2⟩
          show (insertTail avail false v s).bind _ = _
          unfold insertTail
          rw [q1]
          simp only [Res.bind]
          rw [r1]
        · obtain ⟨bs, s', r1, r2⟩ := ih ⟨s.l ++ [c], h'⟩ ⟨by
            refine q2.trans ((List.Perm.append_left _ hi.1).trans ?_)
            show (ownCell c ++ (ext ++ s.l.flatMap ownCell)).Perm (ext ++ (s.l ++ [c]).flatMap ownCell)
            rw [List.flatMap_append, ← List.append_assoc ext]
            simp only [List.flatMap_cons, List.flatMap_nil, List.append_nil]
            exact List.perm_append_comm, q3⟩ hu'
          refine ⟨true :: bs, s', ?_, r2⟩
          show (insertTail avail false v s).bind _ = _
          unfold insertTail
          rw [q1]
          simp only [Res.bind]
          rw [r1]
      | poke v y =>
        have hvb : v.b ∈ s.h.live := hi.1.mem_iff.2 (List.mem_append_left _ huo)
        obtain ⟨bs, s', r1, r2⟩ := ih ⟨s.l, { s.h with val := fun i => if i = v.b then y else s.h.val i }⟩ hi hu'
        refine ⟨true :: bs, s', ?_, r2⟩
        show ((poke v y s.h).bind _).bind _ = _
        unfold poke
        rw [if_pos hvb]
        simp only [Res.bind]
        rw [r1]
  obtain ⟨bs, s', r1, r2⟩ := key
  refine ⟨bs, s', r1, r2, ?_⟩
  obtain ⟨l, h⟩ := s'
  clear r1 hi
  induction l generalizing h with
  | nil => exact ⟨h, rfl, by simpa using r2.1, rfl⟩
  | cons c l ih =>
    have hp : h.live.Perm (c.c :: (ext ++ l.flatMap ownCell)) := by
      refine r2.1.trans ?_
      show (ext ++ ([c.c] ++ l.flatMap ownCell)).Perm _
      rw [← List.append_assoc]
      exact List.Perm.append_right _ List.perm_append_comm
    obtain ⟨h1, f1, f2, f3, f4⟩ := free_head c.c h _ r2.2 hp
    obtain ⟨h2, g1, g2, g3⟩ := ih h1 ⟨f2, f3⟩
    exact ⟨h2, by unfold addrListDestroy; rw [f1]; exact g1, g2, by rw [g3, f4]⟩

/-- C201 is violated: destroying a list with copies leaves the buffer of every vector allocated. -/
theorem listDestroy_leaks_violated (ext : List Nat) (s : St K) (hi : Inv ext ownAll s) :
    ∃ h', listDestroy s.l s.h = .ok h' ∧ h'.live.Perm (ext ++ s.l.map fun c => c.v.b) := by
  obtain ⟨l, h⟩ := s
  induction l generalizing h ext with
  | nil => exact ⟨h, rfl, by simpa using hi.1⟩
  | cons c l ih =>
    have hp : h.live.Perm (c.v.s :: c.c :: ((ext ++ [c.v.b]) ++ l.flatMap ownAll)) := by
      refine hi.1.trans ?_
      show (ext ++ ([c.c, c.v.s, c.v.b] ++ l.flatMap ownAll)).Perm _
      have e1 : (ext ++ ([c.c, c.v.s, c.v.b] ++ l.flatMap ownAll)).Perm (([c.v.s, c.c] ++ (ext ++ [c.v.b])) ++ l.flatMap ownAll) := by
        rw [← List.append_assoc]
        refine List.Perm.append_right _ ?_
        have : ([c.v.s, c.c] ++ (ext ++ [c.v.b])).Perm (ext ++ ([c.v.s, c.c] ++ [c.v.b])) := by
          rw [← List.append_assoc, ← List.append_assoc]
          exact List.Perm.append_right _ List.perm_append_comm
        refine List.Perm.trans ?_ this.symm
        exact List.Perm.append_left _ (List.Perm.swap _ _ _)
      exact e1
    obtain ⟨h1, f1, f2, f3, -⟩ := free_head c.v.s h _ hi.2 hp
    obtain ⟨h2, g1, g2, g3, -⟩ := free_head c.c h1 _ f3 f2
    obtain ⟨h3, k1, k2⟩ := ih (ext ++ [c.v.b]) h2 ⟨g2, g3⟩
    refine ⟨h3, by unfold listDestroy; rw [f1]; simp only [Res.bind]; rw [g1]; exact k1, ?_⟩
    simpa using k2

/-- A list with two copies of the vector of the user, which is changed in between. -/
example : ∃ bs s', run (fun _ => true) true [Op.head ⟨0, 1⟩, .poke ⟨0, 1⟩ [7], .tail ⟨0, 1⟩] (⟨[], ⟨2, [0, 1], fun _ => [(5 : Nat)]⟩⟩ : St Nat) = .ok (bs, s') ∧
    bs = [true, true, true] ∧ contents s' = [[5], [7]] := ⟨_, _, rfl, rfl, rfl⟩
example : Inv [0, 1] ownAll (⟨[], ⟨2, [0, 1], fun _ => [(5 : Nat)]⟩⟩ : St Nat) := ⟨by simp, by simp, by simp⟩

end Zm.VecList
