import Verif.Model.SeqMem
import Mathlib.Data.List.Perm.Basic
import Mathlib.Data.List.Nodup

/-! # C231: memory of sequences of vectors -/

set_option linter.unusedSectionVars false

namespace Zm.SeqMem
open MDMem (Hp alloc free freeAll)

/-- Specification: the blocks of a frame and of a sequence. -/
def C.blocks (c : C) : List Nat := [c.v.buf, c.v.st, c.id]
def blocks (s : List C) : List Nat := s.flatMap C.blocks

/-- The live blocks are those of the sequence and others that do not belong to it; none is counted twice, and addresses are fresh. -/
structure Owns (s : List C) (rest : List Nat) (h : Hp) : Prop where
  live : h.live.Perm (blocks s ++ rest)
  nodup : h.live.Nodup
  fresh : ∀ p ∈ h.live, p < h.next

theorem alloc_cases (avail : Nat → Bool) (h : Hp) (hn : h.live.Nodup) (hf : ∀ p ∈ h.live, p < h.next) :
    ((alloc avail h).1 = none ∧ (alloc avail h).2.live = h.live ∧ (alloc avail h).2.next = h.next) ∨
    (∃ p, (alloc avail h).1 = some p ∧ (alloc avail h).2.live = p :: h.live ∧ (alloc avail h).2.live.Nodup ∧ ∀ q ∈ (alloc avail h).2.live, q < (alloc avail h).2.next) := by
  unfold alloc
  by_cases ha : avail h.t = true
  · right
    refine ⟨h.next, by rw [if_pos ha], by rw [if_pos ha], ?_, ?_⟩
    · rw [if_pos ha]
      exact List.nodup_cons.2 ⟨fun hm => Nat.lt_irrefl _ (hf _ hm), hn⟩
    · rw [if_pos ha]
      intro q hq
      rcases List.mem_cons.1 hq with rfl | hq
      · exact Nat.lt_succ_self _
      · exact Nat.lt_succ_of_lt (hf q hq)
  · left
    rw [if_neg ha]
    exact ⟨rfl, rfl, rfl⟩

theorem free_ok (h : Hp) (p : Nat) (l : List Nat) (hl : h.live.Perm (p :: l)) (hn : h.live.Nodup) (hf : ∀ p ∈ h.live, p < h.next) :
    ∃ h', free h p = .ok h' ∧ h'.live.Perm l ∧ h'.live.Nodup ∧ ∀ q ∈ h'.live, q < h'.next := by
  have hm : p ∈ h.live := hl.symm.subset (List.mem_cons_self ..)
  refine ⟨{ h with live := h.live.erase p }, by unfold free; rw [if_pos hm], ?_, hn.erase _, fun q hq => hf q (List.mem_of_mem_erase hq)⟩
  have := hl.erase p
  rwa [List.erase_cons_head] at this

theorem vecFree_ok (h : Hp) (v : V) (l : List Nat) (hl : h.live.Perm (v.buf :: v.st :: l)) (hn : h.live.Nodup) (hf : ∀ p ∈ h.live, p < h.next) :
    ∃ h', zVecFree (some v) h = .ok h' ∧ h'.live.Perm l ∧ h'.live.Nodup ∧ ∀ q ∈ h'.live, q < h'.next := by
  obtain ⟨h1, e1, l1, n1, f1⟩ := free_ok h v.buf _ hl hn hf
  obtain ⟨h2, e2, l2, n2, f2⟩ := free_ok h1 v.st _ l1 n1 f1
  exact ⟨h2, by simp only [zVecFree, e1, Res.bind, e2], l2, n2, f2⟩

theorem cellFree_ok (h : Hp) (c : C) (l : List Nat) (hl : h.live.Perm (c.blocks ++ l)) (hn : h.live.Nodup) (hf : ∀ p ∈ h.live, p < h.next) :
    ∃ h', zSeqCellFree (some c) h = .ok h' ∧ h'.live.Perm l ∧ h'.live.Nodup ∧ ∀ q ∈ h'.live, q < h'.next := by
  obtain ⟨h1, e1, l1, n1, f1⟩ := vecFree_ok h c.v (c.id :: l) hl hn hf
  obtain ⟨h2, e2, l2, n2, f2⟩ := free_ok h1 c.id _ l1 n1 f1
  exact ⟨h2, by simp only [zSeqCellFree, e1, Res.bind, e2], l2, n2, f2⟩

/-- A vector is allocated with both of its blocks or not at all. -/
theorem vecAlloc_ok (avail : Nat → Bool) (n : Int) (h : Hp) (hn : h.live.Nodup) (hf : ∀ p ∈ h.live, p < h.next) :
    ∃ v h', zVecAlloc avail n h = .ok (v, h') ∧ h'.live.Nodup ∧ (∀ q ∈ h'.live, q < h'.next) ∧
      ((v = none ∧ h'.live.Perm h.live) ∨ ∃ w, v = some w ∧ h'.live.Perm (w.buf :: w.st :: h.live)) := by
  unfold zVecAlloc
  rcases alloc_cases avail h hn hf with ⟨a1, a2, a3⟩ | ⟨p, a1, a2, a3, a4⟩
  · refine ⟨none, (alloc avail h).2, by simp only [a1], by rw [a2]; exact hn, by rw [a2, a3]; exact hf, Or.inl ⟨rfl, by rw [a2]⟩⟩
  · have hl1 : (alloc avail h).2.live.Perm (p :: h.live) := by rw [a2]
    by_cases h0 : 0 < n
    · rcases alloc_cases avail (alloc avail h).2 a3 a4 with ⟨b1, b2, b3⟩ | ⟨q, b1, b2, b3, b4⟩
      · obtain ⟨h2, e2, l2, n2, f2⟩ := free_ok (alloc avail (alloc avail h).2).2 p h.live (by rw [b2]; exact hl1) (by rw [b2]; exact a3) (by rw [b2, b3]; exact a4)
        refine ⟨none, h2, by simp only [a1, if_pos h0, b1, e2, Res.bind], n2, f2, Or.inl ⟨rfl, l2⟩⟩
      · refine ⟨some ⟨p, q⟩, (alloc avail (alloc avail h).2).2, by simp only [a1, if_pos h0, b1], b3, b4, Or.inr ⟨_, rfl, ?_⟩⟩
        rw [b2, a2]
    · obtain ⟨h2, e2, l2, n2, f2⟩ := free_ok (alloc avail h).2 p h.live hl1 a3 a4
      exact ⟨none, h2, by simp only [a1, if_neg h0, e2, Res.bind], n2, f2, Or.inl ⟨rfl, l2⟩⟩

theorem blocks_append (s : List C) (c : C) : blocks (s ++ [c]) = blocks s ++ c.blocks := by simp [blocks]

/-- Putting a new vector into a sequence: it is taken as the newest frame, or everything is as before. -/
theorem push_ok (avail : Nat → Bool) (n : Int) (s : List C) (rest : List Nat) (h : Hp) (ho : Owns s rest h) :
    ∃ s' h', step avail (s, h) (.push n) = .ok (s', h') ∧ Owns s' rest h' ∧ (s' = s ∨ ∃ c, s' = s ++ [c]) := by
  obtain ⟨v, h1, e1, n1, f1, hv⟩ := vecAlloc_ok avail n h ho.nodup ho.fresh
  rcases hv with ⟨rfl, l1⟩ | ⟨w, rfl, l1⟩
  · refine ⟨s, h1, ?_, ⟨l1.trans ho.live, n1, f1⟩, Or.inl rfl⟩
    simp [step, e1, Res.bind, zSeqEnqueue, zVecFree]
  · rcases alloc_cases avail h1 n1 f1 with ⟨a1, a2, a3⟩ | ⟨p, a1, a2, a3, a4⟩
    · obtain ⟨h2, e2, l2, n2, f2⟩ := vecFree_ok (alloc avail h1).2 w h.live (by rw [a2]; exact l1) (by rw [a2]; exact n1) (by rw [a2, a3]; exact f1)
      refine ⟨s, h2, ?_, ⟨l2.trans ho.live, n2, f2⟩, Or.inl rfl⟩
      simp only [step, e1, Res.bind, zSeqEnqueue, a1, e2]
      rfl
    · refine ⟨s ++ [⟨p, w⟩], (alloc avail h1).2, ?_, ⟨?_, a3, a4⟩, Or.inr ⟨_, rfl⟩⟩
      · simp only [step, e1, Res.bind, zSeqEnqueue, a1]
        rfl
      · rw [a2, blocks_append]
        have h3 := (l1.trans ((ho.live.cons w.st).cons w.buf)).cons p
        refine h3.trans ?_
        rw [List.perm_iff_count]
        intro x
        simp only [C.blocks, List.count_append, List.count_cons, List.count_nil]
        omega

theorem pop_ok (avail : Nat → Bool) (s : List C) (rest : List Nat) (h : Hp) (ho : Owns s rest h) :
    ∃ h', step avail (s, h) .pop = .ok (s.tail, h') ∧ Owns s.tail rest h' := by
  cases s with
  | nil => exact ⟨h, rfl, ho⟩
  | cons c s =>
    have hl : h.live.Perm (c.blocks ++ (blocks s ++ rest)) := by simpa [blocks] using ho.live
    obtain ⟨h1, e1, l1, n1, f1⟩ := cellFree_ok h c _ hl ho.nodup ho.fresh
    exact ⟨h1, by simp only [step, zSeqDequeue, e1, Res.bind, List.tail_cons], ⟨l1, n1, f1⟩⟩

theorem seqFree_ok : ∀ (s : List C) (rest : List Nat) (h : Hp), Owns s rest h → ∃ h', zSeqFree s.length s h = .ok ([], h') ∧ Owns [] rest h'
  | [], rest, h, ho => ⟨h, rfl, ho⟩
  | c :: s, rest, h, ho => by
    have hl : h.live.Perm (c.blocks ++ (blocks s ++ rest)) := by simpa [blocks] using ho.live
    obtain ⟨h1, e1, l1, n1, f1⟩ := cellFree_ok h c _ hl ho.nodup ho.fresh
    obtain ⟨h2, e2, o2⟩ := seqFree_ok s rest h1 ⟨l1, n1, f1⟩
    refine ⟨h2, ?_, o2⟩
    rw [List.length_cons, zSeqFree]
    simp only [List.isEmpty_cons, Bool.false_eq_true, if_false, zSeqDequeue, e1, Res.bind]
    exact e2

/-- With enough memory every vector that has elements is taken, and without elements there is no vector. -/
theorem push_iff (avail : Nat → Bool) (ha : ∀ t, avail t = true) (n : Int) (s : List C) (rest : List Nat) (h : Hp) (ho : Owns s rest h) :
    ∃ s' h', step avail (s, h) (.push n) = .ok (s', h') ∧ ((0 < n ∧ ∃ c, s' = s ++ [c]) ∨ (n ≤ 0 ∧ s' = s)) := by
  obtain ⟨s', h', e, -, -⟩ := push_ok avail n s rest h ho
  refine ⟨s', h', e, ?_⟩
  by_cases h0 : 0 < n
  · left
    refine ⟨h0, ?_⟩
    simp [step, zVecAlloc, alloc, ha, h0, Res.bind, zSeqEnqueue] at e
    exact ⟨_, e.1.symm⟩
  · right
    refine ⟨by omega, ?_⟩
    have : ¬ 0 < n := h0
    simp [step, zVecAlloc, alloc, ha, free, h0, Res.bind, zSeqEnqueue, zVecFree] at e
    exact e.1.symm

/-- The loop that reads frames: it loses one cell if and only if it ends at a frame without an interval for which a cell was allocated. -/
theorem scanLoop_ok (avail : Nat → Bool) : ∀ (file : List Rec) (s : List C) (rest : List Nat) (h : Hp), Owns s rest h →
    ∃ s' h' lost, scanLoop avail file s h = .ok (s', h') ∧ Owns s' (lost ++ rest) h' ∧ lost.length ≤ 1 ∧ ((∀ r ∈ file, r.dt = true) → lost = []) ∧ s <+: s' ∧
      s'.length ≤ s.length + file.length
  | [], s, rest, h, ho => ⟨s, h, [], rfl, ho, by simp, fun _ => rfl, List.prefix_refl _, by simp⟩
  | r :: file, s, rest, h, ho => by
    unfold scanLoop
    rcases alloc_cases avail h ho.nodup ho.fresh with ⟨a1, a2, a3⟩ | ⟨p, a1, a2, a3, a4⟩
    · refine ⟨s, (alloc avail h).2, [], by simp only [a1], ⟨by rw [a2]; exact ho.live, by rw [a2]; exact ho.nodup, by rw [a2, a3]; exact ho.fresh⟩, by simp, fun _ => rfl, List.prefix_refl _, by simp⟩
    · by_cases hd : r.dt = true
      · have key : ∃ v h', zVecFScan avail r.size (alloc avail h).2 = .ok (v, h') ∧ h'.live.Nodup ∧ (∀ q ∈ h'.live, q < h'.next) ∧
            ((v = none ∧ h'.live.Perm (alloc avail h).2.live) ∨ ∃ w, v = some w ∧ h'.live.Perm (w.buf :: w.st :: (alloc avail h).2.live)) := by
          cases hs : r.size with
          | none => exact ⟨none, _, rfl, a3, a4, Or.inl ⟨rfl, List.Perm.refl _⟩⟩
          | some n => exact vecAlloc_ok avail n _ a3 a4
        obtain ⟨v, h1, e1, n1, f1, hv⟩ := key
        rw [a2] at hv
        rcases hv with ⟨rfl, l1⟩ | ⟨w, rfl, l1⟩
        · obtain ⟨h2, e2, l2, n2, f2⟩ := free_ok h1 p h.live l1 n1 f1
          refine ⟨s, h2, [], by simp only [a1, hd, if_true, e1, Res.bind, e2], ⟨l2.trans ho.live, n2, f2⟩, by simp, fun _ => rfl, List.prefix_refl _, by simp⟩
        · have o1 : Owns (s ++ [⟨p, w⟩]) rest h1 := by
            refine ⟨?_, n1, f1⟩
            rw [blocks_append]
            refine (l1.trans (((ho.live.cons p).cons w.st).cons w.buf)).trans ?_
            rw [List.perm_iff_count]
            intro x
            simp only [C.blocks, List.count_append, List.count_cons, List.count_nil]
            omega
          obtain ⟨s', h', lost, e, o, hlen, hall, hpre, hcnt⟩ := scanLoop_ok avail file _ rest h1 o1
          refine ⟨s', h', lost, ?_, o, hlen, fun hf => hall fun r hr => hf r (List.mem_cons_of_mem _ hr), (List.prefix_append ..).trans hpre, ?_⟩
          · simp only [a1, hd, if_true, e1, Res.bind]
            exact e
          · simp only [List.length_append, List.length_cons, List.length_nil] at hcnt ⊢
            omega
      · refine ⟨s, (alloc avail h).2, [p], by simp only [a1, hd]; rfl, ⟨?_, a3, a4⟩, by simp, fun hf => absurd (hf r (List.mem_cons_self ..)) hd, List.prefix_refl _, by simp⟩
        rw [a2]
        refine (ho.live.cons p).trans ?_
        rw [List.perm_iff_count]
        intro x
        simp only [List.count_append, List.count_cons, List.count_nil]
        omega

/-- The blocks that reading a file loses: all frames that were in the sequence, and at most one cell more. -/
theorem scan_ok (avail : Nat → Bool) (file : List Rec) (s : List C) (rest : List Nat) (h : Hp) (ho : Owns s rest h) :
    ∃ s' h' lost, step avail (s, h) (.scan file) = .ok (s', h') ∧ Owns s' (lost ++ blocks s ++ rest) h' ∧ lost.length ≤ 1 ∧ ((∀ r ∈ file, r.dt = true) → lost = []) := by
  have o1 : Owns [] (blocks s ++ rest) h := ⟨by simpa [blocks] using ho.live, ho.nodup, ho.fresh⟩
  obtain ⟨s', h', lost, e, o, h1, h2, -, -⟩ := scanLoop_ok avail file [] _ h o1
  exact ⟨s', h', lost, e, by simpa using o, h1, h2⟩

/-- **C231.** Whatever is done with a sequence and whatever allocations fail, nothing is released twice or while it belongs to the sequence, and when it has been freed at the end the only blocks left
(besides those of others) are those that reading a file lost. -/
theorem zSeq_history (avail : Nat → Bool) (rest : List Nat) : ∀ (os : List Op) (s : List C) (h : Hp), Owns s rest h →
    ∃ lost h', run avail (os ++ [.free]) (s, h) = .ok ([], h') ∧ Owns [] (lost ++ rest) h' ∧ ((∀ o ∈ os, ∀ f, o ≠ .scan f) → lost = []) := by
  have main : ∀ (os : List Op) (s : List C) (rest : List Nat) (h : Hp), Owns s rest h →
      ∃ lost s' h', run avail os (s, h) = .ok (s', h') ∧ Owns s' (lost ++ rest) h' ∧ ((∀ o ∈ os, ∀ f, o ≠ .scan f) → lost = []) := by
    intro os
    induction os with
    | nil => intro s rest h ho; exact ⟨[], s, h, rfl, ho, fun _ => rfl⟩
    | cons o os ih =>
      intro s rest h ho
      have hstep : ∃ l s1 h1, step avail (s, h) o = .ok (s1, h1) ∧ Owns s1 (l ++ rest) h1 ∧ ((∀ f, o ≠ .scan f) → l = []) := by
        cases o with
        | push n => obtain ⟨s1, h1, e, o1, -⟩ := push_ok avail n s rest h ho; exact ⟨[], s1, h1, e, o1, fun _ => rfl⟩
        | pop => obtain ⟨h1, e, o1⟩ := pop_ok avail s rest h ho; exact ⟨[], _, h1, e, o1, fun _ => rfl⟩
        | scan f => obtain ⟨s1, h1, l, e, o1, -, -⟩ := scan_ok avail f s rest h ho; exact ⟨l ++ blocks s, s1, h1, e, o1, fun hf => absurd rfl (hf f)⟩
        | free => obtain ⟨h1, e, o1⟩ := seqFree_ok s rest h ho; exact ⟨[], _, h1, e, o1, fun _ => rfl⟩
      obtain ⟨l, s1, h1, e1, o1, hl⟩ := hstep
      obtain ⟨l2, s2, h2, e2, o2, hl2⟩ := ih s1 _ h1 o1
      refine ⟨l2 ++ l, s2, h2, ?_, by simpa using o2, fun hf => ?_⟩
      · rw [run, e1]
        exact e2
      · rw [hl2 fun o ho => hf o (List.mem_cons_of_mem _ ho), hl (hf o (List.mem_cons_self ..))]
        rfl
  intro os s h ho
  obtain ⟨lost, s1, h1, e1, o1, hl⟩ := main os s rest h ho
  obtain ⟨h2, e2, o2⟩ := seqFree_ok s1 _ h1 o1
  refine ⟨lost, h2, ?_, o2, hl⟩
  have happ : ∀ (os : List Op) (x : List C × Hp), run avail (os ++ [.free]) x = (run avail os x).bind fun x => run avail [.free] x := by
    intro os
    induction os with
    | nil => intro x; rfl
    | cons o os ih =>
      intro x
      rw [List.cons_append, run, run]
      cases step avail x o with
      | ok y => simp only [Res.bind]; exact ih y
      | fail => rfl
      | ub => rfl
  rw [happ, e1]
  simp only [Res.bind, run, step, e2]

/-- **C231, partial.** A file read into an empty sequence, every frame of which has its interval: everything is released at the end, wherever memory runs out. -/
theorem zSeqFScan_partial (avail : Nat → Bool) (file : List Rec) (hf : ∀ r ∈ file, r.dt = true) (rest : List Nat) (h : Hp) (ho : Owns [] rest h) :
    ∃ s' h1 h2, zSeqFScan avail file [] h = .ok (s', h1) ∧ s'.length ≤ file.length ∧ zSeqFree s'.length s' h1 = .ok ([], h2) ∧ h2.live.Perm rest := by
  obtain ⟨s', h1, lost, e, o, -, hl, -, hc⟩ := scanLoop_ok avail file [] rest h ho
  rw [hl hf] at o
  obtain ⟨h2, e2, o2⟩ := seqFree_ok s' _ h1 o
  exact ⟨s', h1, h2, e, by simpa using hc, e2, by simpa [blocks] using o2.live⟩

/-- **C231, violated.** A file with a frame and a word that is no number loses a cell; a second file read into the same sequence loses all frames of the first. -/
theorem zSeqFScan_leak_violated :
    (∃ h, run (fun _ => true) [.scan [⟨true, some 2⟩, ⟨false, none⟩], .free] ([], {}) = .ok ([], h) ∧ h.live.length = 1) ∧
    (∃ h, run (fun _ => true) [.scan [⟨true, some 2⟩, ⟨true, some 2⟩], .scan [⟨true, some 1⟩], .free] ([], {}) = .ok ([], h) ∧ h.live.length = 6) :=
  ⟨⟨_, rfl, rfl⟩, ⟨_, rfl, rfl⟩⟩

example : Owns [] [] {} := ⟨by simp [blocks], by simp, by simp⟩
-- the buffer of the second vector cannot be allocated
example : ∃ h, run (fun t => t != 4) [.push 3, .push 2, .push 0, .push 1, .pop, .free] ([], {}) = .ok ([], h) ∧ h.live = [] := ⟨_, rfl, rfl⟩
example : ∃ s h, run (fun t => t != 4) [.push 3, .push 2, .push 1] ([], {}) = .ok (s, h) ∧ s.length = 2 := ⟨_, _, rfl, rfl⟩

end Zm.SeqMem
