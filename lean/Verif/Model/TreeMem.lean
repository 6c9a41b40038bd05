import Verif.Base.Res

/-! # Memory of trees of vectors (zm_vec_tree.c:10-102)

A block of the heap is a node or a vector (the structure and the buffer together); which allocations succeed is arbitrary.  Pointers to nodes form a tree, in which `gone` is a pointer to a
node that has been released.  Into which branch a vector goes is arbitrary, as no block depends on it. -/

namespace Zm.TreeMem
open Zm

/-- Heap: the number of allocations tried, and the blocks that are allocated. -/
structure Heap where
  next : Nat
  live : List Nat

/-- `zAlloc` of a node and `zVecAlloc`, `zVecClone`; `none` is the null pointer. -/
def alloc (avail : Nat → Bool) (h : Heap) : Option Nat × Heap :=
  if avail h.next then (some h.next, ⟨h.next + 1, h.next :: h.live⟩) else (none, ⟨h.next + 1, h.live⟩)

/-- `free`, `zVecFree`: a block that is not allocated is undefined, the null pointer does nothing. -/
def free (p : Option Nat) (h : Heap) : Res Heap :=
  match p with
  | none => .ok h
  | some i => if i ∈ h.live then .ok { h with live := h.live.erase i } else .ub

/-- What a pointer to a node leads to: nothing, a node that has been released, or a node (its own block, its vector, its box, its branches). -/
inductive T where
  | nil
  | gone
  | node (id : Nat) (v lo hi : Option Nat) (s0 s1 : T)

/-- The tree of the user, who owns the node at the root: `split` tells that the split index is valid. -/
structure Root where
  split : Bool
  v : Option Nat
  lo : Option Nat
  hi : Option Nat
  s0 : T
  s1 : T

/-- `zVecTreeInit`, zm_vec_tree.c:10-25: `none` is the null pointer returned for a failure. -/
def init (avail : Nat → Bool) (h : Heap) : Res (Option Root × Heap) :=
  let lo := alloc avail h
  let hi := alloc avail lo.2
  if lo.1.isNone || hi.1.isNone then
    (free lo.1 hi.2).bind fun h => (free hi.1 h).bind fun h => .ok (none, h)
  else .ok (some ⟨false, none, lo.1, hi.1, .nil, .nil⟩, hi.2)

/-- `_zVecTreeCreateLeaf`, zm_vec_tree.c:44-60: the block of the leaf and its vector. -/
def createLeaf (avail : Nat → Bool) (h : Heap) : Res (Option (Nat × Option Nat) × Heap) :=
  let a := alloc avail h
  match a.1 with
  | none => .ok (none, a.2)
  | some i =>
    let v := alloc avail a.2
    if v.1.isNone then (free (some i) v.2).bind fun h => .ok (none, h)
    else .ok (some (i, v.1), v.2)

/-- `_zVecTreeAdd`, zm_vec_tree.c:76-91, where the branch chosen is empty: success, what the branch points to afterwards, and the heap.  The branch is set before the box is allocated, and a failure
releases the leaf but neither its vector nor the branch. -/
def addLeaf (avail : Nat → Bool) (h : Heap) : Res (Bool × T × Heap) :=
  (createLeaf avail h).bind fun r =>
    match r.1 with
    | none => .ok (false, .nil, r.2)
    | some (i, v) =>
      let lo := alloc avail r.2
      let hi := alloc avail lo.2
      if lo.1.isNone || hi.1.isNone then
        (free lo.1 hi.2).bind fun h => (free hi.1 h).bind fun h => (free (some i) h).bind fun h => .ok (false, .gone, h)
      else .ok (true, .node i v lo.1 hi.1 .nil .nil, hi.2)

/-- `_zVecTreeAdd`, zm_vec_tree.c:69-92, from a branch on; `b` tells of the vector of a node whether the new vector goes to the first branch.  The vector of a node is read (zm_vec_tree.c:65), and
so is a node that has been released. -/
def add (avail : Nat → Bool) (b : Nat → Bool) : T → Heap → Res (Bool × T × Heap)
  | .nil, h => addLeaf avail h
  | .gone, _ => .ub
  | .node i v lo hi s0 s1, h =>
    match v with
    | none => .ub
    | some x =>
      if x ∉ h.live then .ub
      else if b x then (add avail b s0 h).bind fun r => .ok (r.1, .node i v lo hi r.2.1 s1, r.2.2)
      else (add avail b s1 h).bind fun r => .ok (r.1, .node i v lo hi s0 r.2.1, r.2.2)

/-- `zVecTreeAdd`, zm_vec_tree.c:95-102. -/
def zVecTreeAdd (avail : Nat → Bool) (b : Nat → Bool) (t : Root) (h : Heap) : Res (Bool × Root × Heap) :=
  if !t.split then
    let v := alloc avail h
    .ok (v.1.isSome, { t with split := true, v := v.1 }, v.2)
  else
    match t.v with
    | none => .ub
    | some x =>
      if x ∉ h.live then .ub
      else if b x then (add avail b t.s0 h).bind fun r => .ok (r.1, { t with s0 := r.2.1 }, r.2.2)
      else (add avail b t.s1 h).bind fun r => .ok (r.1, { t with s1 := r.2.1 }, r.2.2)

/-- `zVecTreeDestroy`, zm_vec_tree.c:28-41, of a branch, followed by the `free` of the branch (31-32, 35-36). -/
def destroyBranch : T → Heap → Res Heap
  | .nil, h => .ok h
  | .gone, _ => .ub
  | .node i v lo hi s0 s1, h =>
    (destroyBranch s0 h).bind fun h => (destroyBranch s1 h).bind fun h =>
    (free v h).bind fun h => (free lo h).bind fun h => (free hi h).bind fun h => free (some i) h

/-- `zVecTreeDestroy`, zm_vec_tree.c:28-41. -/
def zVecTreeDestroy (t : Root) (h : Heap) : Res Heap :=
  (destroyBranch t.s0 h).bind fun h => (destroyBranch t.s1 h).bind fun h =>
  (free t.v h).bind fun h => (free t.lo h).bind fun h => free t.hi h

/-- A history of additions: what each returned, and the tree and the heap at the end. -/
def run (avail : Nat → Bool) : List (Nat → Bool) → Root → Heap → Res (List Bool × Root × Heap)
  | [], t, h => .ok ([], t, h)
  | b :: ops, t, h => (zVecTreeAdd avail b t h).bind fun r => (run avail ops r.2.1 r.2.2).bind fun q => .ok (r.1 :: q.1, q.2.1, q.2.2)

end Zm.TreeMem
