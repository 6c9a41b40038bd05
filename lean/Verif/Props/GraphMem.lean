import Verif.Model.GraphMem
import Mathlib.Algebra.Order.Ring.Rat
import Mathlib.Tactic.Ring
import Mathlib.Tactic.Linarith
import Mathlib.Algebra.BigOperators.Group.List.Basic
import Mathlib.Data.List.Basic

/-! # C225: memory of graphs -/

set_option linter.unusedSectionVars false

namespace Zm.GraphMem
open Zm Graph

/-- The blocks of a graph: of each node the cell, the data and the arcs. -/
def weight {D K : Type*} (g : List (Node D K)) : Int := (g.map fun n => 2 + (n.arc.length : Int)).sum

section
variable {D K : Type*}

theorem arcsFree_live : ∀ (as : List (Nat × K)) (l : Led), (arcsFree as l).live = l.live - as.length
  | [], l => by simp [arcsFree]
  | a :: as, l => by rw [arcsFree, arcsFree_live as]; simp [free]; ring

theorem pathFree_live : ∀ (p : List Nat) (l : Led), (pathFree p l).live = l.live - p.length
  | [], l => by simp [pathFree]
  | a :: as, l => by rw [pathFree, pathFree_live as]; simp [free]; ring

/-- **C225.** Destroying a graph releases the cell, the data and the arcs of each node. -/
theorem destroy_live : ∀ (g : List (Node D K)) (l : Led), (destroy g l).live = l.live - weight g
  | [], l => by simp [destroy, weight]
  | n :: g, l => by rw [destroy, destroy_live g]; simp only [free, arcsFree_live, weight, List.map_cons, List.sum_cons]; ring

theorem weight_append (g k : List (Node D K)) : weight (g ++ k) = weight g + weight k := by simp [weight]

theorem weight_set (g : List (Node D K)) : ∀ (i : Nat) (n m : Node D K), g[i]? = some n → weight (g.set i m) = weight g - n.arc.length + m.arc.length := by
  induction g with
  | nil => intro i n m h; simp at h
  | cons a g ih =>
    intro i n m h
    cases i with
    | zero =>
      simp only [List.getElem?_cons_zero, Option.some.injEq] at h
      subst h
      simp only [List.set_cons_zero, weight, List.map_cons, List.sum_cons]; ring
    | succ i =>
      simp only [List.getElem?_cons_succ] at h
      have := ih i n m h
      simp only [List.set_cons_succ, weight, List.map_cons, List.sum_cons] at this ⊢
      rw [this]; ring

theorem addNode_live (avail : Nat → Bool) (equal : D → D → Bool) (g : List (Node D K)) (d : D) (l : Led) :
    (addNode avail equal g d l).2.2.live - weight (addNode avail equal g d l).2.1 = l.live - weight g ∧
    ((addNode avail equal g d l).1 = false → (addNode avail equal g d l).2.1 = g) ∧
    ((addNode avail equal g d l).1 = true → (addNode avail equal g d l).2.1 = zGraphAddNode equal g d) := by
  unfold addNode zGraphAddNode
  by_cases he : (g.any fun n => equal n.data d) = true
  · simp [he]
  · cases h1 : avail l.t with
    | false => simp [he, alloc, h1]
    | true =>
      cases h2 : avail (l.t + 1) with
      | false => simp [he, alloc, h1, h2, free]
      | true =>
        simp only [he, alloc, h1, Bool.not_true, Bool.false_eq_true, if_false, if_true, h2, weight_append]
        refine ⟨?_, by simp, by simp⟩
        simp [weight]; ring

/-- What the replacement or addition of an arc does, in the terms of the plain model. -/
theorem arcConnect_eq (arc : List (Nat × K)) (dest : Nat) (cost : K) (hn : (arc.map (·.1)).Nodup) :
    arcConnect arc dest cost = if arc.any fun a => a.1 = dest then arc.map (fun a => if a.1 = dest then (dest, cost) else a) else arc ++ [(dest, cost)] := by
  induction arc with
  | nil => simp [arcConnect]
  | cons a l ih =>
    simp only [List.map_cons, List.nodup_cons] at hn
    have ih := ih hn.2
    by_cases ha : a.1 = dest
    · have hl : l.map (fun a => if a.1 = dest then (dest, cost) else a) = l := by
        conv_rhs => rw [← List.map_id l]
        apply List.map_congr_left
        intro b hb
        have : b.1 ≠ dest := by
          intro hb'
          exact hn.1 (List.mem_map.mpr ⟨b, hb, by rw [hb', ha]⟩)
        simp [this]
      simp [arcConnect, ha, hl]
    · simp only [arcConnect, ha, if_false, ih, List.any_cons, decide_false, Bool.false_or]
      split <;> simp [ha]

theorem nodeConnect_live (avail : Nat → Bool) (g : List (Node D K)) (src dest : Nat) (cost : K) (l : Led) (hs : src < g.length) :
    ∃ ok g' l', nodeConnect avail g src dest cost l = .ok (ok, g', l') ∧ l'.live - weight g' = l.live - weight g ∧ g'.length = g.length ∧ (ok = false → g' = g) := by
  unfold nodeConnect
  rw [List.getElem?_eq_getElem hs]
  dsimp only
  by_cases h : (g[src].arc.any fun a => a.1 = dest) = true
  · rw [if_pos h]
    refine ⟨_, _, _, rfl, ?_, by simp, by simp⟩
    rw [weight_set g src g[src] _ (List.getElem?_eq_getElem hs)]
    simp
  · rw [if_neg h]
    cases ha : avail l.t with
    | false => exact ⟨false, g, ⟨l.t + 1, l.live⟩, by simp [alloc, ha], by simp, rfl, fun _ => rfl⟩
    | true =>
      refine ⟨true, g.set src { g[src] with arc := g[src].arc ++ [(dest, cost)] }, ⟨l.t + 1, l.live + 1⟩, by simp [alloc, ha], ?_, by simp, by simp⟩
      rw [weight_set g src g[src] _ (List.getElem?_eq_getElem hs)]
      simp
      ring

theorem nodeConnect_eq (avail : Nat → Bool) (g : List (Node D K)) (src dest : Nat) (cost : K) (l : Led) (hs : src < g.length)
    (hn : (g[src].arc.map (·.1)).Nodup) (g' : List (Node D K)) (l' : Led) (e : nodeConnect avail g src dest cost l = .ok (true, g', l')) :
    g' = zGraphNodeConnect g src dest cost := by
  have hm : zGraphNodeConnect g src dest cost = g.set src { g[src] with arc := arcConnect g[src].arc dest cost } := by
    unfold zGraphNodeConnect
    rw [List.modify_eq_set_getElem?, List.getElem?_eq_getElem hs]
    simp
  unfold nodeConnect at e
  rw [List.getElem?_eq_getElem hs] at e
  dsimp only at e
  rw [hm, arcConnect_eq _ _ _ hn]
  by_cases h : (g[src].arc.any fun a => a.1 = dest) = true
  · rw [if_pos h] at e ⊢
    simp only [Res.ok.injEq, Prod.mk.injEq] at e
    exact e.2.1.symm
  · rw [if_neg h] at e ⊢
    cases ha : avail l.t with
    | false => simp [alloc, ha] at e
    | true =>
      simp only [alloc, ha, Bool.not_true, Bool.false_eq_true, if_false, Res.ok.injEq, Prod.mk.injEq] at e
      exact e.2.1.symm

theorem findNode_lt (equal : D → D → Bool) (g : List (Node D K)) (d : D) (i : Nat) (h : zGraphFindNode equal g d = some i) : i < g.length :=
  (List.findIdx?_eq_some_iff_getElem.mp h).1

theorem connect_live (avail : Nat → Bool) (equal : D → D → Bool) (g : List (Node D K)) (a b : D) (cost : K) (l : Led) :
    ∃ ok g' l', connect avail equal g a b cost l = .ok (ok, g', l') ∧ l'.live - weight g' = l.live - weight g := by
  unfold connect
  cases h1 : zGraphFindNode equal g a with
  | none => exact ⟨_, _, _, rfl, rfl⟩
  | some s =>
    cases h2 : zGraphFindNode equal g b with
    | none => exact ⟨_, _, _, rfl, rfl⟩
    | some d =>
      obtain ⟨ok, g', l', e, hw, _⟩ := nodeConnect_live avail g s d cost l (findNode_lt equal g a s h1)
      exact ⟨ok, g', l', e, hw⟩

theorem biconnect_live (avail : Nat → Bool) (equal : D → D → Bool) (g : List (Node D K)) (a b : D) (cost : K) (l : Led) :
    ∃ ok g' l', biconnect avail equal g a b cost l = .ok (ok, g', l') ∧ l'.live - weight g' = l.live - weight g := by
  unfold biconnect
  cases h1 : zGraphFindNode equal g a with
  | none => exact ⟨_, _, _, rfl, rfl⟩
  | some s =>
    cases h2 : zGraphFindNode equal g b with
    | none => exact ⟨_, _, _, rfl, rfl⟩
    | some d =>
      obtain ⟨ok, g', l', e, hw, hlen, _⟩ := nodeConnect_live avail g s d cost l (findNode_lt equal g a s h1)
      cases ok with
      | false => exact ⟨false, g', l', by simp [e, Res.bind], hw⟩
      | true =>
        obtain ⟨ok2, g2, l2, e2, hw2, _⟩ := nodeConnect_live avail g' d s cost l' (by rw [hlen]; exact findNode_lt equal g b d h2)
        exact ⟨ok2, g2, l2, by simp [e, e2, Res.bind], by rw [hw2, hw]⟩

/-- **C225.** Whatever is added and connected in whatever order, and whatever allocations fail: no call is undefined, and destroying the graph releases every block that the calls allocated. -/
theorem run_destroy (avail : Nat → Bool) (equal : D → D → Bool) : ∀ (ops : List (Op D K)) (g : List (Node D K)) (l : Led),
    ∃ q, run avail equal ops g l = .ok q ∧ q.1.length = ops.length ∧ (destroy q.2.1 q.2.2).live = (destroy g l).live := by
  intro ops
  induction ops with
  | nil => intro g l; exact ⟨_, rfl, rfl, rfl⟩
  | cons o ops ih =>
    intro g l
    have hstep : ∃ ok g' l', step avail equal g l o = .ok (ok, g', l') ∧ l'.live - weight g' = l.live - weight g := by
      cases o with
      | add d => exact ⟨_, _, _, rfl, (addNode_live avail equal g d l).1⟩
      | connect a b c => exact connect_live avail equal g a b c l
      | biconnect a b c => exact biconnect_live avail equal g a b c l
    obtain ⟨ok, g', l', e, hw⟩ := hstep
    obtain ⟨q, e2, h1, h2⟩ := ih g' l'
    refine ⟨(ok :: q.1, q.2), by simp [run, e, e2, Res.bind], by simp [h1], ?_⟩
    rw [h2, destroy_live, destroy_live, hw]

/-- **C225.** From an empty graph to its destruction no block is lost. -/
theorem zGraph_history (avail : Nat → Bool) (equal : D → D → Bool) (ops : List (Op D K)) (l : Led) :
    ∃ q, run avail equal ops [] l = .ok q ∧ (destroy q.2.1 q.2.2).live = l.live := by
  obtain ⟨q, e, _, h⟩ := run_destroy avail equal ops [] l
  exact ⟨q, e, by rw [h]; simp [destroy]⟩

end

section
variable {D K : Type*} [Field K] [LinearOrder K]

theorem listAddC_fst (p : List Nat × Led) (n : Nat) : (listAddC p n).1 = listAdd p.1 n := by
  unfold listAddC listAdd; split <;> rfl

theorem listAddC_live (p : List Nat × Led) (n : Nat) : (listAddC p n).2.live - (listAddC p n).1.length = p.2.live - p.1.length := by
  unfold listAddC; split
  · rfl
  · simp

theorem relaxC_fst (H : Nat → K) (cc : Nat) (p : SS K × Led) (a : Nat × K) : (relaxC H cc p a).1 = relax H cc p.1 a := by
  unfold relaxC relax
  cases p.1.val cc with
  | none => rfl
  | some x =>
    dsimp only
    split
    · simp only [listAddC_fst]
    · rfl

theorem relaxC_live (H : Nat → K) (cc : Nat) (p : SS K × Led) (a : Nat × K) :
    (relaxC H cc p a).2.live - (relaxC H cc p a).1.yet.length = p.2.live - p.1.yet.length := by
  unfold relaxC
  cases p.1.val cc with
  | none => rfl
  | some x =>
    dsimp only
    split
    · exact listAddC_live (p.1.yet, p.2) a.1
    · rfl

theorem foldl_relaxC (H : Nat → K) (cc : Nat) : ∀ (as : List (Nat × K)) (p : SS K × Led),
    (as.foldl (relaxC H cc) p).1 = as.foldl (relax H cc) p.1 ∧
    (as.foldl (relaxC H cc) p).2.live - (as.foldl (relaxC H cc) p).1.yet.length = p.2.live - p.1.yet.length
  | [], p => ⟨rfl, rfl⟩
  | a :: as, p => by
    obtain ⟨h1, h2⟩ := foldl_relaxC H cc as (relaxC H cc p a)
    simp only [List.foldl_cons]
    refine ⟨by rw [h1, relaxC_fst], by rw [h2, relaxC_live]⟩

theorem pick_mem (hval : Nat → Option K) (l : List Nat) (c : Nat) (h : pick hval l = some c) : c ∈ l := by
  unfold pick at h
  have key : ∀ (l : List Nat) (o : Option Nat), (l.foldl (fun cc n => match cc with
    | none => some n
    | some c => if ltH (hval n) (hval c) then some n else some c) o) = some c → c ∈ l ∨ o = some c := by
    intro l
    induction l with
    | nil => intro o h; exact Or.inr h
    | cons a l ih =>
      intro o h
      simp only [List.foldl_cons] at h
      rcases ih _ h with h | h
      · exact Or.inl (List.mem_cons_of_mem _ h)
      · cases o with
        | none => simp only [Option.some.injEq] at h; subst h; exact Or.inl (by simp)
        | some d =>
          dsimp only at h
          split at h
          · simp only [Option.some.injEq] at h; subst h; exact Or.inl (by simp)
          · exact Or.inr h
  rcases key l none h with h | h
  · exact h
  · simp at h

theorem foldl_relaxC_mono (H : Nat → K) (cc : Nat) : ∀ (as : List (Nat × K)) (q : SS K × Led), q.2.live ≤ (as.foldl (relaxC H cc) q).2.live := by
  intro as
  induction as with
  | nil => intro q; exact le_refl _
  | cons a as iha =>
    intro q
    refine le_trans ?_ (iha _)
    unfold relaxC
    cases q.1.val cc with
    | none => exact le_refl _
    | some x =>
      dsimp only
      split
      · unfold listAddC; split
        · exact le_refl _
        · dsimp only; omega
      · exact le_refl _

/-- The main loop computes the same as without the blocks, and the blocks are never fewer than at its beginning. -/
theorem astarLoopC_eq (g : List (Node D K)) (H : Nat → K) (s : Nat) : ∀ (fuel : Nat) (p : SS K × Led),
    match astarLoop g H s fuel p.1 with
    | .ok st => ∃ l, astarLoopC g H s fuel p = .ok (st, l) ∧ p.2.live ≤ l.live
    | .fail => astarLoopC g H s fuel p = .fail
    | .ub => astarLoopC g H s fuel p = .ub := by
  intro fuel
  induction fuel with
  | zero => intro p; simp [astarLoop, astarLoopC]
  | succ fuel ih =>
    intro p
    obtain ⟨st, l0⟩ := p
    cases hp : pick st.hval st.yet with
    | none => simp [astarLoop, astarLoopC, hp]
    | some cc =>
      by_cases hc : cc = s
      · simp [astarLoop, astarLoopC, hp, hc]
      · have hf := foldl_relaxC H cc (arcs g cc) ({ st with yet := st.yet.erase cc }, l0)
        have hm := foldl_relaxC_mono H cc (arcs g cc) ({ st with yet := st.yet.erase cc }, l0)
        have := ih ((arcs g cc).foldl (relaxC H cc) ({ st with yet := st.yet.erase cc }, l0))
        rw [hf.1] at this
        simp only [astarLoop, astarLoopC, hp, hc, if_false]
        dsimp only at this ⊢
        cases hr : astarLoop g H s fuel ((arcs g cc).foldl (relax H cc) { st with yet := st.yet.erase cc }) with
        | ub => rw [hr] at this; exact this
        | fail => rw [hr] at this; exact this
        | ok st' =>
          rw [hr] at this
          obtain ⟨l, e, h1⟩ := this
          exact ⟨l, e, le_trans hm h1⟩

theorem pathLoopC_eq (next : Nat → Option Nat) (gl : Nat) : ∀ (fuel n : Nat) (p : List Nat × Led),
    match pathLoop next gl fuel n p.1 with
    | .ok l => ∃ b, pathLoopC next gl fuel n p = .ok (l, b) ∧ b.live - l.length = p.2.live - p.1.length
    | .fail => pathLoopC next gl fuel n p = .fail
    | .ub => pathLoopC next gl fuel n p = .ub := by
  intro fuel
  induction fuel with
  | zero => intro n p; simp [pathLoop, pathLoopC]
  | succ fuel ih =>
    intro n p
    have hf := listAddC_fst p n
    have hl := listAddC_live p n
    by_cases hn : n = gl
    · simp only [pathLoop, pathLoopC, hn, if_true]
      rw [hn] at hf hl
      refine ⟨(listAddC p gl).2, by rw [← hf], ?_⟩
      rw [← hf]; exact hl
    · cases hx : next n with
      | none => simp [pathLoop, pathLoopC, hn, hx]
      | some m =>
        have := ih m (listAddC p n)
        rw [hf] at this
        simp only [pathLoop, pathLoopC, hn, if_false, hx]
        cases hr : pathLoop next gl fuel m (listAdd p.1 n) with
        | ub => rw [hr] at this; exact this
        | fail => rw [hr] at this; exact this
        | ok l =>
          rw [hr] at this
          obtain ⟨b, e, hb⟩ := this
          refine ⟨b, e, ?_⟩
          rw [hb, ← hf]; exact hl

/-- **C225, violated.** Every search that returns loses memory: when the caller has released the path, at least one more block than before the call is allocated (the cell of the goal node is
in a list that is never released). -/
theorem zGraphSearchAStar_leak_violated (equal : D → D → Bool) (h : D → D → K) (g : List (Node D K)) (old : SS K) (start goal : D) (l : Led)
    (c : Option K) (path : List Nat) (e : zGraphSearchAStar equal h g old start goal = .ok (c, path)) :
    ∃ l', searchAStar equal h g old start goal l = .ok (c, path, l') ∧ l.live < (pathFree path l').live := by
  unfold zGraphSearchAStar at e
  unfold searchAStar
  split at e
  · rename_i s gl st hi
    rw [hi]
    dsimp only
    unfold searchMain at e
    unfold searchMainC
    cases hg : g[s]? with
    | none => rw [hg] at e; simp at e
    | some sn =>
      rw [hg] at e
      dsimp only at e ⊢
      have hadd : listAddC ([], l) gl = ([gl], { l with live := l.live + 1 }) := by simp [listAddC]
      rw [hadd]
      dsimp only
      have hA := astarLoopC_eq g (heur h g sn.data) s (g.length + 1)
        ({ val := fun i => if i = gl then some 0 else st.val i, hval := fun i => if i = gl then some (heur h g sn.data gl) else st.hval i, next := st.next, yet := [gl] }, { l with live := l.live + 1 })
      dsimp only at hA
      cases hr : astarLoop g (heur h g sn.data) s (g.length + 1) { val := fun i => if i = gl then some 0 else st.val i, hval := fun i => if i = gl then some (heur h g sn.data gl) else st.hval i, next := st.next, yet := [gl] } with
      | ub => rw [hr] at e; simp [Res.bind] at e
      | fail => rw [hr] at e; simp [Res.bind] at e
      | ok st' =>
        rw [hr] at e hA
        obtain ⟨l1, e1, h1⟩ := hA
        rw [e1]
        simp only [Res.bind] at e ⊢
        have hP := pathLoopC_eq st'.next gl (g.length + 1) s ([], l1)
        dsimp only at hP
        cases hq : pathLoop st'.next gl (g.length + 1) s [] with
        | ub => rw [hq] at e; simp at e
        | fail => rw [hq] at e; simp at e
        | ok p =>
          rw [hq] at e hP
          obtain ⟨b, e2, h2⟩ := hP
          rw [e2]
          simp only [Res.ok.injEq, Prod.mk.injEq] at e
          obtain ⟨ec, ep⟩ := e
          subst ec; subst ep
          refine ⟨b, rfl, ?_⟩
          rw [pathFree_live]
          simp at h2
          omega
  · simp at e

end

/-- **C225, violated.** With the functions that `zGraphInit` sets (zm_graph.c:56-76), of which the test for equality always succeeds, a graph never has more than one node: a second one is reported
to be added, and is not. -/
theorem zGraphInit_equal_violated {D K : Type*} (avail : Nat → Bool) (ds : List D) :
    ∀ (g : List (Node D K)) (l : Led) (q : List Bool × List (Node D K) × Led), g.length ≤ 1 → run avail (fun _ _ => true) (ds.map Op.add) g l = .ok q → q.2.1.length ≤ 1 := by
  induction ds with
  | nil => intro g l q hg e; simp only [List.map_nil, run, Res.ok.injEq] at e; rw [← e]; exact hg
  | cons d ds ih =>
    intro g l q hg e
    obtain ⟨q', e', _⟩ := run_destroy avail (fun _ _ => true) (ds.map Op.add) (addNode avail (fun _ _ => true) g d l).2.1 (addNode avail (fun _ _ => true) g d l).2.2
    simp only [List.map_cons, run, step, Res.bind, e', Res.ok.injEq] at e
    rw [← e]
    refine ih _ _ q' ?_ e'
    unfold addNode
    cases g with
    | nil =>
      simp only [List.any_nil, Bool.false_eq_true, if_false]
      split
      · simp
      · split <;> simp
    | cons a g => simpa using hg

/-- Two nodes that are connected both ways, and an arc whose cost is changed: six blocks before the graph is destroyed. -/
example : ∃ q, run (fun _ => true) (fun a b : Nat => decide (a = b)) [.add 1, .add 2, .biconnect 1 2 (5 : ℚ), .connect 1 2 3, .connect 1 9 3, .add 2] [] {} = .ok q ∧
    q.1 = [true, true, true, true, false, true] ∧ q.2.2.live = 6 ∧ (destroy q.2.1 q.2.2).live = 0 :=
  ⟨_, rfl, by decide +kernel, by decide +kernel, by decide +kernel⟩

/-- The second arc of a pair cannot be allocated: the first one stays, and nothing is lost. -/
example : ∃ q, run (fun n => n != 5) (fun a b : Nat => decide (a = b)) [.add 1, .add 2, .biconnect 1 2 (5 : ℚ)] [] {} = .ok q ∧
    q.1 = [true, true, false] ∧ q.2.2.live = 5 ∧ (destroy q.2.1 q.2.2).live = 0 :=
  ⟨_, rfl, by decide +kernel, by decide +kernel, by decide +kernel⟩

/-- A search in a graph of two nodes: two cells are lost. -/
example : ∃ c p l, searchAStar (fun a b : Nat => decide (a = b)) (fun _ _ => 0) [⟨1, [(1, (5 : ℚ))]⟩, ⟨2, [(0, 5)]⟩] ⟨fun _ => none, fun _ => none, fun _ => none, []⟩ 1 2 {} = .ok (c, p, l) ∧
    p = [0, 1] ∧ (pathFree p l).live = 2 :=
  ⟨_, _, _, rfl, by decide +kernel, by decide +kernel⟩

end Zm.GraphMem
