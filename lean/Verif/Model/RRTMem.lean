import Verif.Base.Res

/-! # Memory of random trees (zm_rrt.c)

The blocks are counted: a vector (its structure and its buffer together), a cell of a tree, of a path or of a list of near nodes is one block each.  Which allocations succeed is arbitrary, and so
is what the functions of the user answer: how each extension ends, which nodes are near, whether the goal is reached and how long the path is. -/

namespace Zm.RRTMem
open Zm

/-- The number of allocations tried so far and the number of live blocks. -/
structure Led where
  t : Nat := 0
  live : Int := 0

/-- An allocation of one block. -/
def alloc (avail : Nat → Bool) (l : Led) : Bool × Led := (avail l.t, ⟨l.t + 1, if avail l.t then l.live + 1 else l.live⟩)

/-- The release of one block. -/
def free (l : Led) : Led := { l with live := l.live - 1 }

/-- `_zRRTListDestroy`, zm_rrt.c:10-19, for a tree of `n` nodes: of each the vector and the cell. -/
def listDestroy : Nat → Led → Led
  | 0, l => l
  | n+1, l => listDestroy n (free (free l))

/-- `_zRRTListCloneNode`, zm_rrt.c:38-48, with `_zRRTListAddNode`, zm_rrt.c:22-35: success, the number of nodes and the blocks. -/
def cloneNode (avail : Nat → Bool) (n : Nat) (l : Led) : Bool × Nat × Led :=
  let v := alloc avail l
  if !v.1 then (false, n, v.2)
  else
    let c := alloc avail v.2
    if !c.1 then (false, n, free c.2) else (true, n + 1, c.2)

/-- The return values, zm_rrt.c:86-92. -/
inductive Ret where
  | nop | advanced | reached | trapped | allocError
  deriving DecidableEq

/-- How an extension ends if memory is there: the node is on the tree already, the new point is rejected, or it is added; `reach` tells that it is the point asked for. -/
inductive Out where
  | nop
  | trapped
  | add (reach : Bool)

/-- `_zRRTListExtend`, zm_rrt.c:111-130. -/
def extend (avail : Nat → Bool) (o : Out) (n : Nat) (l : Led) : Ret × Nat × Led :=
  match o with
  | .nop => (.nop, n, l)
  | .trapped =>
    let v := alloc avail l
    if !v.1 then (.allocError, n, v.2) else (.trapped, n, free v.2)
  | .add r =>
    let v := alloc avail l
    if !v.1 then (.allocError, n, v.2)
    else
      let c := alloc avail v.2
      if !c.1 then (.allocError, n, free c.2) else (if r then .reached else .advanced, n + 1, c.2)

/-- The nodes within the radius, zm_rrt.c:267-277, with `_zRRTListCheckNodeRewirable`, zm_rrt.c:223-240, and `_zRRTNearListAdd`, zm_rrt.c:243-255: `ok` tells of each whether the line to it is free.
A node whose check finds no memory is skipped; `false` is the jump to the end when a cell cannot be allocated.  The number is that of the cells. -/
def nearLoop (avail : Nat → Bool) : List Bool → Nat → Led → Bool × Nat × Led
  | [], k, l => (true, k, l)
  | ok :: near, k, l =>
    let m := alloc avail l
    if !m.1 then nearLoop avail near k m.2
    else if !ok then nearLoop avail near k (free m.2)
    else
      let c := alloc avail (free m.2)
      if !c.1 then (false, k, c.2) else nearLoop avail near (k+1) c.2

/-- The releases of a list of near nodes (`zListDestroy`, zm_rrt.c:297). -/
def nearDestroy : Nat → Led → Led
  | 0, l => l
  | k+1, l => nearDestroy k (free l)

/-- `_zRRTListAddAndRewireNode`, zm_rrt.c:258-299: the result is true also where the list of near nodes could not be made and the node is not added. -/
def addAndRewire (avail : Nat → Bool) (near : List Bool) (n : Nat) (l : Led) : Bool × Nat × Led :=
  let a := nearLoop avail near 0 l
  if !a.1 then (true, n, nearDestroy a.2.1 a.2.2)
  else
    let b := if a.2.1 = 0 then let c := alloc avail a.2.2; (c.1, if c.1 then 1 else 0, c.2) else a
    if !b.1 then (true, n, nearDestroy b.2.1 b.2.2)
    else
      let c := alloc avail b.2.2
      if !c.1 then (false, n, nearDestroy b.2.1 c.2)
      else (true, n + 1, nearDestroy (b.2.1 - 1) (free c.2))

/-- `_zRRTListExtendOpt`, zm_rrt.c:303-326. -/
def extendOpt (avail : Nat → Bool) (near : List Bool) (o : Out) (n : Nat) (l : Led) : Ret × Nat × Led :=
  match o with
  | .nop => (.nop, n, l)
  | .trapped =>
    let v := alloc avail l
    if !v.1 then (.allocError, n, v.2) else (.trapped, n, free v.2)
  | .add r =>
    let v := alloc avail l
    if !v.1 then (.allocError, n, v.2)
    else
      let a := addAndRewire avail near n v.2
      if !a.1 then (.allocError, a.2.1, free a.2.2) else (if r then .reached else .advanced, a.2.1, a.2.2)

/-- The loop of `_zRRTFindPath`, zm_rrt.c:192-198: each iteration has an extension and the answer about the goal. -/
def findLoop (ext : List Bool → Out → Nat → Led → Ret × Nat × Led) : List (Out × List Bool × Bool) → Nat → Led → Bool × Nat × Led
  | [], n, l => (false, n, l)
  | i :: is, n, l =>
    let e := ext i.2.1 i.1 n l
    match e.1 with
    | .allocError => (false, e.2.1, e.2.2)
    | .trapped => findLoop ext is e.2.1 e.2.2
    | _ => if i.2.2 then (true, e.2.1, e.2.2) else findLoop ext is e.2.1 e.2.2

/-- A walk of `d` nodes, zm_rrt.c:171-175: each is inserted into the path (zm_vec_list.c:10-26), and failures are ignored.  The number is that of the cells of the path. -/
def walk (avail : Nat → Bool) : Nat → Nat → Led → Nat × Led
  | 0, p, l => (p, l)
  | d+1, p, l =>
    let c := alloc avail l
    if !c.1 then walk avail d p c.2
    else
      let v := alloc avail c.2
      if !v.1 then walk avail d p (free v.2) else walk avail d (p+1) v.2

/-- The trees of the user and the number of cells of all paths handed over. -/
structure St where
  s : Nat := 0
  g : Nat := 0
  paths : Nat := 0
  l : Led := {}

/-- `_zRRTFindPath`, zm_rrt.c:180-206; `d` is the length of the walk, if the caller wants the cost. -/
def findPath (avail : Nat → Bool) (ext : List Bool → Out → Nat → Led → Ret × Nat × Led) (is : List (Out × List Bool × Bool)) (d : Option Nat) (st : St) : Bool × St :=
  let c := cloneNode avail 0 (listDestroy st.s st.l)
  if !c.1 then (false, { st with s := c.2.1, l := c.2.2 })
  else
    let v := alloc avail c.2.2
    if !v.1 then (false, { st with s := c.2.1, l := v.2 })
    else
      let r := findLoop ext is c.2.1 v.2
      match d with
      | none => (r.1, { st with s := r.2.1, l := free r.2.2 })
      | some d =>
        let w := walk avail d 0 r.2.2
        (r.1, { st with s := r.2.1, paths := st.paths + w.1, l := free w.2 })

/-- `_zRRTListExtendGreedy`, zm_rrt.c:133-141; the outcomes end with one that is not an advance, and an endless loop is `none`. -/
def extendGreedy (avail : Nat → Bool) : List Out → Nat → Led → Option (Ret × Nat × Led)
  | [], _, _ => none
  | o :: os, n, l =>
    let e := extend avail o n l
    if e.1 = .advanced then extendGreedy avail os e.2.1 e.2.2 else some e

/-- The loop of `zRRTFindPathDual`, zm_rrt.c:372-379: the trees `list1` and `list2`, and whether they are exchanged. -/
def dualLoop (avail : Nat → Bool) : List (Out × List Out) → Nat → Nat → Bool → Led → Option (Bool × (Nat × Nat × Bool) × Led)
  | [], n1, n2, sw, l => some (false, (n1, n2, sw), l)
  | i :: is, n1, n2, sw, l =>
    let e := extend avail i.1 n1 l
    match e.1 with
    | .allocError => some (false, (e.2.1, n2, sw), e.2.2)
    | .trapped => dualLoop avail is e.2.1 n2 sw e.2.2
    | _ =>
      match extendGreedy avail i.2 n2 e.2.2 with
      | none => none
      | some f => if f.1 = .reached then some (true, (e.2.1, f.2.1, sw), f.2.2) else dualLoop avail is f.2.1 e.2.1 (!sw) f.2.2

/-- `zRRTFindPathDual`, zm_rrt.c:355-387; `d` is the length of the two walks. -/
def findPathDual (avail : Nat → Bool) (is : List (Out × List Out)) (d : Option (Nat × Nat)) (st : St) : Option (Bool × St) :=
  let c := cloneNode avail 0 (listDestroy st.g (listDestroy st.s st.l))
  if !c.1 then some (false, { st with s := c.2.1, g := 0, l := c.2.2 })
  else
    let e := cloneNode avail 0 c.2.2
    if !e.1 then some (false, { st with s := c.2.1, g := e.2.1, l := e.2.2 })
    else
      let v := alloc avail e.2.2
      if !v.1 then some (false, { st with s := c.2.1, g := e.2.1, l := v.2 })
      else
        (dualLoop avail is c.2.1 e.2.1 false v.2).map fun r =>
          let s := if r.2.1.2.2 then r.2.1.2.1 else r.2.1.1
          let g := if r.2.1.2.2 then r.2.1.1 else r.2.1.2.1
          match d with
          | none => (r.1, { st with s := s, g := g, l := free r.2.2 })
          | some d =>
            let w := walk avail d.1 0 r.2.2
            let x := walk avail d.2 w.1 w.2
            (r.1, { st with s := s, g := g, paths := st.paths + x.1, l := free x.2 })

/-- `_zRRTListExtendEscape`, zm_rrt.c:434-457: `none` is a node on the tree already, otherwise whether the new point is free. -/
def extendEscape (avail : Nat → Bool) (o : Option Bool) (n : Nat) (l : Led) : Ret × Nat × Led :=
  match o with
  | none => (.nop, n, l)
  | some clear =>
    let v := alloc avail l
    if !v.1 then (.allocError, n, v.2)
    else
      let c := alloc avail v.2
      if !c.1 then (.allocError, n, free c.2) else (if clear then .reached else .trapped, n + 1, c.2)

/-- The loop of `zRRTEscape`, zm_rrt.c:476-481. -/
def escapeLoop (avail : Nat → Bool) : List (Option Bool) → Nat → Led → Bool × Nat × Led
  | [], n, l => (false, n, l)
  | o :: os, n, l =>
    let e := extendEscape avail o n l
    match e.1 with
    | .reached => (true, e.2.1, e.2.2)
    | .allocError => (false, e.2.1, e.2.2)
    | _ => escapeLoop avail os e.2.1 e.2.2

/-- `zRRTEscape`, zm_rrt.c:460-489; `hit` tells that the start is not free. -/
def escape (avail : Nat → Bool) (hit : Bool) (os : List (Option Bool)) (st : St) : Bool × St :=
  if !hit then (true, st)
  else
    let c := cloneNode avail 0 (listDestroy st.s st.l)
    if !c.1 then (false, { st with s := c.2.1, l := c.2.2 })
    else
      let v := alloc avail c.2.2
      if !v.1 then (false, { st with s := c.2.1, l := v.2 })
      else
        let r := escapeLoop avail os c.2.1 v.2
        (r.1, { st with s := r.2.1, l := free r.2.2 })

/-- `zRRTShortcutPath`, zm_rrt.c:404-431, of a path of `p` cells of which `k` are taken out. -/
def shortcut (avail : Nat → Bool) (p k : Nat) (st : St) : Bool × St :=
  if p < 3 then (true, st)
  else
    let v := alloc avail st.l
    if !v.1 then (false, { st with l := v.2 })
    else (true, { st with paths := st.paths - k, l := free (listDestroy k v.2) })

/-- `zRRTDestroy`, zm_rrt.c:158-162. -/
def destroy (st : St) : St := { st with s := 0, g := 0, l := listDestroy st.g (listDestroy st.s st.l) }

/-- Calls by the user. -/
inductive Op where
  | find (is : List (Out × List Bool × Bool)) (d : Option Nat)
  | opt (is : List (Out × List Bool × Bool)) (d : Option Nat)
  | dual (is : List (Out × List Out)) (d : Option (Nat × Nat))
  | escape (hit : Bool) (os : List (Option Bool))
  | shortcut (p k : Nat)

/-- One call; `none` is an endless loop. -/
def step (avail : Nat → Bool) (st : St) : Op → Option (Bool × St)
  | .find is d => some (findPath avail (fun _ => extend avail) is d st)
  | .opt is d => some (findPath avail (extendOpt avail) is d st)
  | .dual is d => findPathDual avail is d st
  | .escape hit os => some (escape avail hit os st)
  | .shortcut p k => if p ≤ st.paths ∧ k + 2 ≤ p then some (shortcut avail p k st) else some (true, st)

/-- A history. -/
def run (avail : Nat → Bool) : List Op → St → Option St
  | [], st => some st
  | o :: ops, st => (step avail st o).bind fun r => run avail ops r.2

end Zm.RRTMem
