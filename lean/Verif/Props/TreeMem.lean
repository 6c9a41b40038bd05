import Verif.Model.TreeMem
import Mathlib.Data.List.Perm.Basic

/-! # Memory of trees of vectors: properties -/

set_option linter.unusedSectionVars false

namespace Zm.TreeMem
open Zm

/-- The blocks that a branch owns. -/
def T.owned : T → List Nat
  | .nil => []
  | .gone => []
  | .node i v lo hi s0 s1 => s0.owned ++ (s1.owned ++ (v.toList ++ (lo.toList ++ (hi.toList ++ [i]))))

/-- No pointer leads to a node that has been released. -/
def T.sound : T → Prop
  | .nil => True
  | .gone => False
  | .node _ v _ _ s0 s1 => v.isSome ∧ s0.sound ∧ s1.sound

/-- Number of vectors in a branch. -/
def T.count : T → Nat
  | .nil => 0
  | .gone => 0
  | .node _ v _ _ s0 s1 => v.toList.length + s0.count + s1.count

/-- The blocks that a tree owns besides the node of the user. -/
def Root.owned (t : Root) : List Nat := t.s0.owned ++ (t.s1.owned ++ (t.v.toList ++ (t.lo.toList ++ t.hi.toList)))

/-- No pointer leads to a node that has been released. -/
def Root.sound (t : Root) : Prop := t.s0.sound ∧ t.s1.sound

/-- Number of vectors in a tree. -/
def Root.count (t : Root) : Nat := t.v.toList.length + t.s0.count + t.s1.count

theorem free_perm (p : Option Nat) (h : Heap) (l : List Nat) (hp : h.live.Perm (p.toList ++ l)) :
    ∃ g, free p h = .ok g ∧ g.live.Perm l ∧ g.next = h.next := by
  cases p with
  | none => exact ⟨h, rfl, by simpa using hp, rfl⟩
  | some i =>
    have hm : i ∈ h.live := hp.mem_iff.mpr (by simp)
    refine ⟨{ h with live := h.live.erase i }, by simp [free, hm], ?_, rfl⟩
    have := hp.erase i
    simpa using this

theorem alloc_some (avail : Nat → Bool) (h : Heap) (ha : avail h.next = true) : alloc avail h = (some h.next, ⟨h.next + 1, h.next :: h.live⟩) := by simp [alloc, ha]

theorem alloc_none (avail : Nat → Bool) (h : Heap) (ha : avail h.next = false) : alloc avail h = (none, ⟨h.next + 1, h.live⟩) := by simp [alloc, ha]

theorem destroyBranch_perm (t : T) (hs : t.sound) : ∀ (h : Heap) (l : List Nat), h.live.Perm (t.owned ++ l) →
    ∃ g, destroyBranch t h = .ok g ∧ g.live.Perm l := by
  induction t with
  | nil => intro h l hp; exact ⟨h, rfl, by simpa [T.owned] using hp⟩
  | gone => exact hs.elim
  | node i v lo hi s0 s1 ih0 ih1 =>
    intro h l hp
    simp only [T.owned, List.append_assoc] at hp
    obtain ⟨g0, e0, p0⟩ := ih0 hs.2.1 h _ hp
    obtain ⟨g1, e1, p1⟩ := ih1 hs.2.2 g0 _ p0
    obtain ⟨g2, e2, p2, _⟩ := free_perm v g1 _ p1
    obtain ⟨g3, e3, p3, _⟩ := free_perm lo g2 _ p2
    obtain ⟨g4, e4, p4, _⟩ := free_perm hi g3 _ p3
    obtain ⟨g5, e5, p5, _⟩ := free_perm (some i) g4 l (by simpa using p4)
    exact ⟨g5, by simp [destroyBranch, e0, e1, e2, e3, e4, e5, Res.bind], p5⟩

/-- **C224.** Destroying a tree in which no pointer dangles releases exactly the blocks of the tree, each once. -/
theorem zVecTreeDestroy_perm (t : Root) (hs : t.sound) (h : Heap) (l : List Nat) (hp : h.live.Perm (t.owned ++ l)) :
    ∃ g, zVecTreeDestroy t h = .ok g ∧ g.live.Perm l := by
  simp only [Root.owned, List.append_assoc] at hp
  obtain ⟨g0, e0, p0⟩ := destroyBranch_perm t.s0 hs.1 h _ hp
  obtain ⟨g1, e1, p1⟩ := destroyBranch_perm t.s1 hs.2 g0 _ p0
  obtain ⟨g2, e2, p2, _⟩ := free_perm t.v g1 _ p1
  obtain ⟨g3, e3, p3, _⟩ := free_perm t.lo g2 _ p2
  obtain ⟨g4, e4, p4, _⟩ := free_perm t.hi g3 _ p3
  exact ⟨g4, by simp [zVecTreeDestroy, e0, e1, e2, e3, e4, Res.bind], p4⟩

/-- **C224.** Initialisation: a tree that owns exactly the blocks allocated, or a failure with nothing allocated. -/
theorem init_correct (avail : Nat → Bool) (h : Heap) :
    ∃ o g, init avail h = .ok (o, g) ∧
      match o with
      | none => g.live.Perm h.live
      | some t => t.sound ∧ t.split = false ∧ t.v = none ∧ t.count = 0 ∧ g.live.Perm (t.owned ++ h.live) := by
  cases h1 : avail h.next with
  | false =>
    cases h2 : avail (h.next + 1) with
    | false =>
      refine ⟨none, ⟨h.next + 2, h.live⟩, ?_, List.Perm.refl _⟩
      simp [init, alloc, h1, h2, free, Res.bind]
    | true =>
      refine ⟨none, ⟨h.next + 2, h.live⟩, ?_, List.Perm.refl _⟩
      simp [init, alloc, h1, h2, free, Res.bind]
  | true =>
    cases h2 : avail (h.next + 1) with
    | false =>
      refine ⟨none, ⟨h.next + 2, h.live⟩, ?_, List.Perm.refl _⟩
      simp [init, alloc, h1, h2, free, Res.bind]
    | true =>
      refine ⟨some ⟨false, none, some h.next, some (h.next + 1), .nil, .nil⟩, ⟨h.next + 2, (h.next + 1) :: h.next :: h.live⟩, ?_, ?_⟩
      · simp [init, alloc, h1, h2]
      · refine ⟨⟨trivial, trivial⟩, rfl, rfl, rfl, ?_⟩
        simpa [Root.owned, T.owned] using List.Perm.swap _ _ _

theorem addLeaf_correct (avail : Nat → Bool) (h : Heap) :
    ∃ ok t g, addLeaf avail h = .ok (ok, t, g) ∧
      (t = .gone ∧ ok = false ∨
        t.sound ∧ t.count = (if ok then 1 else 0) ∧ (ok = false → t = .nil) ∧ g.live.Perm (t.owned ++ h.live)) := by
  cases h1 : avail h.next with
  | false => exact ⟨false, .nil, ⟨h.next + 1, h.live⟩, by simp [addLeaf, createLeaf, alloc, h1, Res.bind], Or.inr ⟨trivial, rfl, fun _ => rfl, List.Perm.refl _⟩⟩
  | true =>
    cases h2 : avail (h.next + 1) with
    | false => exact ⟨false, .nil, ⟨h.next + 2, h.live⟩, by simp [addLeaf, createLeaf, alloc, h1, h2, free, Res.bind], Or.inr ⟨trivial, rfl, fun _ => rfl, List.Perm.refl _⟩⟩
    | true =>
      cases h3 : avail (h.next + 2) with
      | false =>
        cases h4 : avail (h.next + 3) with
        | false => exact ⟨false, .gone, _, by simp [addLeaf, createLeaf, alloc, h1, h2, h3, h4, free, Res.bind]; rfl, Or.inl ⟨rfl, rfl⟩⟩
        | true => exact ⟨false, .gone, _, by simp [addLeaf, createLeaf, alloc, h1, h2, h3, h4, free, Res.bind]; rfl, Or.inl ⟨rfl, rfl⟩⟩
      | true =>
        cases h4 : avail (h.next + 3) with
        | false => exact ⟨false, .gone, _, by simp [addLeaf, createLeaf, alloc, h1, h2, h3, h4, free, Res.bind]; rfl, Or.inl ⟨rfl, rfl⟩⟩
        | true =>
          refine ⟨true, .node h.next (some (h.next + 1)) (some (h.next + 2)) (some (h.next + 3)) .nil .nil, ⟨h.next + 4, _⟩, by simp [addLeaf, createLeaf, alloc, h1, h2, h3, h4, Res.bind]; rfl, Or.inr ⟨⟨rfl, trivial, trivial⟩, rfl, by simp, ?_⟩⟩
          rw [List.perm_iff_count]
          intro a
          simp [T.owned, List.count_cons, Nat.add_assoc]
          omega

/-- What is true of an addition: `own`, `own'` are the blocks owned before and afterwards. -/
theorem add_correct (avail : Nat → Bool) (b : Nat → Bool) (t : T) : ∀ (h : Heap) (rest : List Nat), t.sound → h.live.Perm (t.owned ++ rest) →
    ∃ ok t' g, add avail b t h = .ok (ok, t', g) ∧ (ok = true → t'.sound) ∧
      (t'.sound → t'.count = t.count + (if ok then 1 else 0) ∧ (ok = false → t' = t) ∧ g.live.Perm (t'.owned ++ rest)) := by
  induction t with
  | nil =>
    intro h rest hs hp
    obtain ⟨ok, t', g, e, c⟩ := addLeaf_correct avail h
    refine ⟨ok, t', g, e, ?_, ?_⟩
    · intro ho
      rcases c with c | c
      · rw [ho] at c; exact absurd c.2 (by simp)
      · exact c.1
    · intro hs'
      rcases c with c | c
      · rw [c.1] at hs'; exact hs'.elim
      · refine ⟨by simpa [T.count] using c.2.1, c.2.2.1, ?_⟩
        exact c.2.2.2.trans (List.Perm.append_left _ (by simpa [T.owned] using hp))
  | gone => intro h rest hs; exact hs.elim
  | node i v lo hi s0 s1 ih0 ih1 =>
    intro h rest hs hp
    obtain ⟨hv, hs0, hs1⟩ := hs
    cases v with
    | none => simp at hv
    | some x =>
      have hx : x ∈ h.live := hp.mem_iff.mpr (by simp [T.owned])
      by_cases hb : b x = true
      · have hp0 : h.live.Perm (s0.owned ++ (s1.owned ++ ((some x).toList ++ (lo.toList ++ (hi.toList ++ [i]))) ++ rest)) := by
          simpa [T.owned, List.append_assoc] using hp
        obtain ⟨ok, t', g, e, c1, c2⟩ := ih0 h _ hs0 hp0
        refine ⟨ok, .node i (some x) lo hi t' s1, g, by simp [add, hx, hb, e, Res.bind], fun ho => ⟨rfl, c1 ho, hs1⟩, fun hs' => ?_⟩
        obtain ⟨d1, d2, d3⟩ := c2 hs'.2.1
        refine ⟨by simp only [T.count, d1]; omega, fun ho => by rw [d2 ho], ?_⟩
        simpa [T.owned, List.append_assoc] using d3
      · have hp1 : h.live.Perm (s1.owned ++ (s0.owned ++ ((some x).toList ++ (lo.toList ++ (hi.toList ++ [i]))) ++ rest)) := by
          refine hp.trans ?_
          rw [List.perm_iff_count]; intro a
          simp only [T.owned, List.count_append]; omega
        obtain ⟨ok, t', g, e, c1, c2⟩ := ih1 h _ hs1 hp1
        refine ⟨ok, .node i (some x) lo hi s0 t', g, by simp [add, hx, hb, e, Res.bind], fun ho => ⟨rfl, hs0, c1 ho⟩, fun hs' => ?_⟩
        obtain ⟨d1, d2, d3⟩ := c2 hs'.2.2
        refine ⟨by simp only [T.count, d1]; omega, fun ho => by rw [d2 ho], d3.trans ?_⟩
        rw [List.perm_iff_count]; intro a
        simp only [T.owned, List.count_append]; omega

/-- A tree to which vectors can be added: initialised only, or with a vector at the root. -/
def Root.ready (t : Root) : Prop := t.sound ∧ (t.split = false ∧ t.v = none ∧ t.s0 = .nil ∧ t.s1 = .nil ∨ t.split = true ∧ t.v.isSome)

/-- **C224.** An addition to a tree without dangling pointers is defined.  If it succeeds the tree holds one vector more, and as long as no pointer dangles the tree owns exactly the blocks that
were allocated for it. -/
theorem zVecTreeAdd_correct (avail : Nat → Bool) (b : Nat → Bool) (t : Root) (h : Heap) (rest : List Nat) (hr : t.ready)
    (hp : h.live.Perm (t.owned ++ rest)) :
    ∃ ok t' g, zVecTreeAdd avail b t h = .ok (ok, t', g) ∧ (ok = true → t'.ready) ∧
      (t'.sound → t'.count = t.count + (if ok then 1 else 0) ∧ g.live.Perm (t'.owned ++ rest)) := by
  obtain ⟨⟨hs0, hs1⟩, hr | hr⟩ := hr
  · obtain ⟨r1, r2, r3, r4⟩ := hr
    cases ha : avail h.next with
    | false =>
      refine ⟨false, { t with split := true, v := none }, ⟨h.next + 1, h.live⟩, by simp [zVecTreeAdd, r1, alloc, ha], by simp, fun _ => ⟨by simp [Root.count, r2], ?_⟩⟩
      simpa [Root.owned, r2] using hp
    | true =>
      refine ⟨true, { t with split := true, v := some h.next }, ⟨h.next + 1, h.next :: h.live⟩, by simp [zVecTreeAdd, r1, alloc, ha], fun _ => ⟨⟨hs0, hs1⟩, Or.inr ⟨rfl, rfl⟩⟩,
        fun _ => ⟨by simp [Root.count, r2, r3, r4, T.count], ?_⟩⟩
      refine (List.Perm.cons _ hp).trans ?_
      rw [List.perm_iff_count]; intro a
      simp only [Root.owned, r2, List.count_append, List.count_cons, Option.toList_none, Option.toList_some, List.count_nil]; omega
  · obtain ⟨r1, r2⟩ := hr
    cases hv : t.v with
    | none => rw [hv] at r2; simp at r2
    | some x =>
      have hx : x ∈ h.live := hp.mem_iff.mpr (by simp [Root.owned, hv])
      by_cases hb : b x = true
      · obtain ⟨ok, t', g, e, c1, c2⟩ := add_correct avail b t.s0 h (t.s1.owned ++ (t.v.toList ++ (t.lo.toList ++ t.hi.toList)) ++ rest) hs0
          (by simpa [Root.owned, List.append_assoc] using hp)
        refine ⟨ok, { t with s0 := t' }, g, by simp [zVecTreeAdd, r1, hv, hx, hb, e, Res.bind], fun ho => ⟨⟨c1 ho, hs1⟩, Or.inr ⟨r1, by simp [hv]⟩⟩, fun hs' => ?_⟩
        obtain ⟨d1, _, d3⟩ := c2 hs'.1
        exact ⟨by simp only [Root.count, d1]; omega, by simpa [Root.owned, List.append_assoc] using d3⟩
      · obtain ⟨ok, t', g, e, c1, c2⟩ := add_correct avail b t.s1 h (t.s0.owned ++ (t.v.toList ++ (t.lo.toList ++ t.hi.toList)) ++ rest) hs1
          (hp.trans (by rw [List.perm_iff_count]; intro a; simp only [Root.owned, List.count_append]; omega))
        refine ⟨ok, { t with s1 := t' }, g, by simp [zVecTreeAdd, r1, hv, hx, hb, e, Res.bind], fun ho => ⟨⟨hs0, c1 ho⟩, Or.inr ⟨r1, by simp [hv]⟩⟩, fun hs' => ?_⟩
        obtain ⟨d1, _, d3⟩ := c2 hs'.2
        exact ⟨by simp only [Root.count, d1]; omega, d3.trans (by rw [List.perm_iff_count]; intro a; simp only [Root.owned, List.count_append]; omega)⟩

/-- **C224.** An addition that fails because the leaf or its vector cannot be allocated leaves a tree with vectors as it was. -/
theorem zVecTreeAdd_leaf_failure (avail : Nat → Bool) (b : Nat → Bool) (t : Root) (h : Heap) (rest : List Nat) (hr : t.ready) (hs : t.split = true)
    (hp : h.live.Perm (t.owned ++ rest)) (ok : Bool) (t' : Root) (g : Heap) (e : zVecTreeAdd avail b t h = .ok (ok, t', g)) (hf : ok = false) (hsd : t'.sound) :
    t' = t ∧ g.live.Perm h.live := by
  obtain ⟨⟨hs0, hs1⟩, hr⟩ := hr
  have hv : t.v.isSome := by
    rcases hr with hr | hr
    · rw [hr.1] at hs; exact absurd hs (by simp)
    · exact hr.2
  cases hx : t.v with
  | none => rw [hx] at hv; simp at hv
  | some x =>
    have hm : x ∈ h.live := hp.mem_iff.mpr (by simp [Root.owned, hx])
    by_cases hb : b x = true
    · obtain ⟨ok', u, g', e', c1, c2⟩ := add_correct avail b t.s0 h (t.s1.owned ++ (t.v.toList ++ (t.lo.toList ++ t.hi.toList)) ++ rest) hs0
        (by simpa [Root.owned, List.append_assoc] using hp)
      have e2 : zVecTreeAdd avail b t h = .ok (ok', { t with s0 := u }, g') := by simp [zVecTreeAdd, hs, hx, hm, hb, e', Res.bind]
      rw [e2] at e
      simp only [Res.ok.injEq, Prod.mk.injEq] at e
      obtain ⟨q1, q2, q3⟩ := e
      subst q1; subst q2; subst q3
      obtain ⟨_, d2, d3⟩ := c2 hsd.1
      have := d2 hf
      subst this
      exact ⟨rfl, d3.trans (by simpa [Root.owned, List.append_assoc] using hp.symm)⟩
    · obtain ⟨ok', u, g', e', c1, c2⟩ := add_correct avail b t.s1 h (t.s0.owned ++ (t.v.toList ++ (t.lo.toList ++ t.hi.toList)) ++ rest) hs1
        (hp.trans (by rw [List.perm_iff_count]; intro a; simp only [Root.owned, List.count_append]; omega))
      have e2 : zVecTreeAdd avail b t h = .ok (ok', { t with s1 := u }, g') := by simp [zVecTreeAdd, hs, hx, hm, hb, e', Res.bind]
      rw [e2] at e
      simp only [Res.ok.injEq, Prod.mk.injEq] at e
      obtain ⟨q1, q2, q3⟩ := e
      subst q1; subst q2; subst q3
      obtain ⟨_, d2, d3⟩ := c2 hsd.2
      have := d2 hf
      subst this
      exact ⟨rfl, d3.trans (hp.trans (by rw [List.perm_iff_count]; intro a; simp only [Root.owned, List.count_append]; omega)).symm⟩

theorem run_correct (avail : Nat → Bool) : ∀ (ops : List (Nat → Bool)) (t : Root) (h : Heap) (rest : List Nat), t.ready → h.live.Perm (t.owned ++ rest) →
    (∀ q, run avail ops t h = .ok q → (∀ r ∈ q.1, r = true) →
      q.2.1.ready ∧ q.2.1.count = t.count + ops.length ∧ q.2.2.live.Perm (q.2.1.owned ++ rest)) := by
  intro ops
  induction ops with
  | nil =>
    intro t h rest hr hp q e _
    simp only [run, Res.ok.injEq] at e
    subst e
    exact ⟨hr, by simp, hp⟩
  | cons b ops ih =>
    intro t h rest hr hp q e hq
    obtain ⟨ok, t', g, e', c1, c2⟩ := zVecTreeAdd_correct avail b t h rest hr hp
    simp only [run, e', Res.bind] at e
    cases e2 : run avail ops t' g with
    | ub => rw [e2] at e; exact absurd e (by simp)
    | fail => rw [e2] at e; exact absurd e (by simp)
    | ok w =>
      rw [e2] at e
      simp only [Res.ok.injEq] at e
      subst e
      have ho : ok = true := hq ok (by simp)
      have hr' := c1 ho
      obtain ⟨d1, d2⟩ := c2 hr'.1
      obtain ⟨f1, f2, f3⟩ := ih t' g rest hr' d2 w e2 (fun r hr => hq r (by simp [hr]))
      refine ⟨f1, ?_, f3⟩
      rw [f2, d1, ho]
      simp; omega

theorem run_defined (avail : Nat → Bool) (ha : ∀ n, avail n = true) : ∀ (ops : List (Nat → Bool)) (t : Root) (h : Heap) (rest : List Nat), t.ready → h.live.Perm (t.owned ++ rest) →
    ∃ q, run avail ops t h = .ok q ∧ ∀ r ∈ q.1, r = true := by
  have leafOk : ∀ h, ∃ u g, addLeaf avail h = .ok (true, u, g) := fun h => ⟨_, _, by simp [addLeaf, createLeaf, alloc, ha, Res.bind]; exact ⟨rfl, rfl⟩⟩
  have addOk : ∀ b t h ok u g, add avail b t h = .ok (ok, u, g) → ok = true := by
    intro b t
    induction t with
    | nil =>
      intro h ok u g e
      obtain ⟨u', g', e'⟩ := leafOk h
      simp only [add] at e
      rw [e'] at e
      simp only [Res.ok.injEq, Prod.mk.injEq] at e
      exact e.1.symm
    | gone => intro h ok u g e; simp [add] at e
    | node i v lo hi s0 s1 ih0 ih1 =>
      intro h ok u g e
      cases v with
      | none => simp [add] at e
      | some x =>
        by_cases hx : x ∈ h.live
        · by_cases hb : b x = true
          · cases e0 : add avail b s0 h with
            | ub => simp [add, hx, hb, e0, Res.bind] at e
            | fail => simp [add, hx, hb, e0, Res.bind] at e
            | ok w =>
              simp [add, hx, hb, e0, Res.bind] at e
              rw [← e.1]; exact ih0 h w.1 w.2.1 w.2.2 e0
          · cases e0 : add avail b s1 h with
            | ub => simp [add, hx, hb, e0, Res.bind] at e
            | fail => simp [add, hx, hb, e0, Res.bind] at e
            | ok w =>
              simp [add, hx, hb, e0, Res.bind] at e
              rw [← e.1]; exact ih1 h w.1 w.2.1 w.2.2 e0
        · simp [add, hx] at e
  have addOk' : ∀ b t h ok u g, zVecTreeAdd avail b t h = .ok (ok, u, g) → ok = true := by
    intro b t h ok u g e
    by_cases hsp : t.split = true
    · cases hv : t.v with
      | none => simp [zVecTreeAdd, hsp, hv] at e
      | some x =>
        by_cases hx : x ∈ h.live
        · by_cases hb : b x = true
          · cases e0 : add avail b t.s0 h with
            | ub => simp [zVecTreeAdd, hsp, hv, hx, hb, e0, Res.bind] at e
            | fail => simp [zVecTreeAdd, hsp, hv, hx, hb, e0, Res.bind] at e
            | ok w =>
              simp [zVecTreeAdd, hsp, hv, hx, hb, e0, Res.bind] at e
              rw [← e.1]; exact addOk b t.s0 h w.1 w.2.1 w.2.2 e0
          · cases e0 : add avail b t.s1 h with
            | ub => simp [zVecTreeAdd, hsp, hv, hx, hb, e0, Res.bind] at e
            | fail => simp [zVecTreeAdd, hsp, hv, hx, hb, e0, Res.bind] at e
            | ok w =>
              simp [zVecTreeAdd, hsp, hv, hx, hb, e0, Res.bind] at e
              rw [← e.1]; exact addOk b t.s1 h w.1 w.2.1 w.2.2 e0
        · simp [zVecTreeAdd, hsp, hv, hx] at e
    · simp [zVecTreeAdd, hsp, alloc, ha] at e
      exact e.1
  intro ops
  induction ops with
  | nil => intro t h rest _ _; exact ⟨_, rfl, by simp⟩
  | cons b ops ih =>
    intro t h rest hr hp
    obtain ⟨ok, t', g, e', c1, c2⟩ := zVecTreeAdd_correct avail b t h rest hr hp
    have ho := addOk' b t h ok t' g e'
    have hr' := c1 ho
    obtain ⟨q, e2, hq⟩ := ih t' g rest hr' (c2 hr'.1).2
    refine ⟨_, by simp only [run, e', e2, Res.bind]; rfl, ?_⟩
    intro r hr
    simp only [List.mem_cons] at hr
    rcases hr with hr | hr
    · rw [hr, ho]
    · exact hq r hr

/-- **C224.** Initialise a tree, add any number of vectors, and destroy it: if no call failed, the tree held every vector added, and all blocks are released, each once. -/
theorem zVecTree_history_partial (avail : Nat → Bool) (h : Heap) (t : Root) (g : Heap) (ei : init avail h = .ok (some t, g)) (ops : List (Nat → Bool))
    (q : List Bool × Root × Heap) (er : run avail ops t g = .ok q) (hq : ∀ r ∈ q.1, r = true) :
    q.2.1.count = ops.length ∧ ∃ f, zVecTreeDestroy q.2.1 q.2.2 = .ok f ∧ f.live.Perm h.live := by
  obtain ⟨o, g', e, c⟩ := init_correct avail h
  rw [ei] at e
  simp only [Res.ok.injEq, Prod.mk.injEq] at e
  obtain ⟨e1, e2⟩ := e
  subst e1; subst e2
  obtain ⟨c1, c2, c3, c4, c5⟩ := c
  have hn : t.s0 = .nil ∧ t.s1 = .nil := by
    have : init avail h = .ok (some t, g) := ei
    cases h1 : avail h.next <;> cases h2 : avail (h.next + 1) <;> simp [init, alloc, h1, h2, free, Res.bind] at this
    rw [← this.1]; exact ⟨rfl, rfl⟩
  obtain ⟨d1, d2, d3⟩ := run_correct avail ops t g h.live ⟨c1, Or.inl ⟨c2, c3, hn.1, hn.2⟩⟩ c5 q er hq
  exact ⟨by rw [d2, c4]; omega, zVecTreeDestroy_perm q.2.1 d1.1 q.2.2 h.live d3⟩

/-- **C224.** With enough memory no history of additions is undefined, and no call fails. -/
theorem zVecTree_enough_memory (avail : Nat → Bool) (ha : ∀ n, avail n = true) (h : Heap) (ops : List (Nat → Bool)) :
    ∃ t g q, init avail h = .ok (some t, g) ∧ run avail ops t g = .ok q ∧ (∀ r ∈ q.1, r = true) ∧ q.2.1.count = ops.length ∧
      ∃ f, zVecTreeDestroy q.2.1 q.2.2 = .ok f ∧ f.live.Perm h.live := by
  have ei : init avail h = .ok (some ⟨false, none, some h.next, some (h.next + 1), .nil, .nil⟩, ⟨h.next + 2, (h.next + 1) :: h.next :: h.live⟩) := by simp [init, alloc, ha]
  have hp : ((h.next + 1) :: h.next :: h.live).Perm ((⟨false, none, some h.next, some (h.next + 1), .nil, .nil⟩ : Root).owned ++ h.live) := by
    simpa [Root.owned, T.owned] using List.Perm.swap _ _ _
  obtain ⟨q, e, hq⟩ := run_defined avail ha ops ⟨false, none, some h.next, some (h.next + 1), .nil, .nil⟩ ⟨h.next + 2, (h.next + 1) :: h.next :: h.live⟩ h.live ⟨⟨trivial, trivial⟩, Or.inl ⟨rfl, rfl, rfl, rfl⟩⟩ hp
  obtain ⟨c, d⟩ := zVecTree_history_partial avail h _ _ ei ops q e hq
  exact ⟨_, _, q, ei, e, hq, c, d⟩

/-- The memory runs out at one allocation only. -/
def failAt (k : Nat) (n : Nat) : Bool := n != k

/-- **C224, violated.** When the box of a leaf cannot be allocated the leaf is released, but its parent still points to it: destroying the tree reads a node that has been released. -/
theorem zVecTreeDestroy_violated : ∃ (avail : Nat → Bool) (t : Root) (g : Heap) (q : List Bool × Root × Heap),
    init avail ⟨0, []⟩ = .ok (some t, g) ∧ run avail [fun _ => true, fun _ => true] t g = .ok q ∧ q.1 = [true, false] ∧ zVecTreeDestroy q.2.1 q.2.2 = .ub :=
  ⟨failAt 5, _, _, _, rfl, rfl, rfl, rfl⟩

/-- **C224, violated.** In the same case the vector of the leaf is neither in the tree nor released. -/
theorem zVecTreeAdd_leak_violated : ∃ (avail : Nat → Bool) (t : Root) (g : Heap) (q : List Bool × Root × Heap),
    init avail ⟨0, []⟩ = .ok (some t, g) ∧ run avail [fun _ => true, fun _ => true] t g = .ok q ∧ q.1 = [true, false] ∧ q.2.1.owned = [2, 0, 1] ∧ q.2.2.live = [4, 2, 1, 0] :=
  ⟨failAt 5, _, _, _, rfl, rfl, rfl, by decide +kernel, by decide +kernel⟩

/-- **C224, violated.** When the first vector cannot be copied the tree takes itself for one with a vector, and the next addition reads a null pointer although memory is there again. -/
theorem zVecTreeAdd_retry_violated : ∃ (avail : Nat → Bool) (t : Root) (g : Heap),
    init avail ⟨0, []⟩ = .ok (some t, g) ∧ (∃ t' g', run avail [fun _ => true] t g = .ok ([false], t', g')) ∧ run avail [fun _ => true, fun _ => true] t g = .ub :=
  ⟨failAt 2, _, _, rfl, ⟨_, _, rfl⟩, rfl⟩

/-- Three vectors, in both branches; all blocks are released. -/
example : ∃ t g q f, init (fun _ => true) ⟨0, []⟩ = .ok (some t, g) ∧ run (fun _ => true) [fun _ => true, fun _ => true, fun _ => false] t g = .ok q ∧
    q.1 = [true, true, true] ∧ q.2.1.count = 3 ∧ zVecTreeDestroy q.2.1 q.2.2 = .ok f ∧ f.live = [] :=
  ⟨_, _, _, _, rfl, rfl, rfl, rfl, rfl, by decide +kernel⟩

/-- A leaf that cannot be allocated: the tree is as before. -/
example : ∃ t g q, init (failAt 3) ⟨0, []⟩ = .ok (some t, g) ∧ run (failAt 3) [fun _ => true, fun _ => true] t g = .ok q ∧ q.1 = [true, false] ∧ q.2.1.sound ∧ q.2.1.count = 1 :=
  by refine ⟨_, _, _, rfl, rfl, rfl, ?_, rfl⟩; exact ⟨trivial, trivial⟩

end Zm.TreeMem
