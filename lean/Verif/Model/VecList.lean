import Verif.Base.Res
import Mathlib.Tactic.TypeStar

/-!
# Lists of vectors and their memory (zm_vec_list.c:10-77, 142-152, 165-200)

The heap consists of blocks; a vector is a block for the structure and one for its buffer, a cell of a list is another block.  Which allocations succeed is arbitrary.
The first element of a list here is the one at the head.  The links of the list (ZEDA) are not modelled.
-/

namespace Zm.VecList
open Zm

variable {K : Type*}

/-- Heap: the blocks that are allocated, and the numbers in them (buffers only). -/
structure Heap (K : Type*) where
  next : Nat
  live : List Nat
  val : Nat → List K

/-- `malloc`/`calloc` of a block with contents `c`. -/
def alloc (avail : Nat → Bool) (c : List K) (h : Heap K) : Option Nat × Heap K :=
  if avail h.next then (some h.next, ⟨h.next + 1, h.next :: h.live, fun i => if i = h.next then c else h.val i⟩)
  else (none, { h with next := h.next + 1 })

/-- `free`: a block that is not allocated is undefined. -/
def free (i : Nat) (h : Heap K) : Res (Heap K) := if i ∈ h.live then .ok { h with live := h.live.erase i } else .ub

/-- A vector: structure and buffer. -/
structure V where
  s : Nat
  b : Nat

/-- `zVecClone`, zm_vec.c:119-127, with `zVecAlloc` (31-45), of a vector that is not empty: where the buffer cannot be allocated the structure is released. -/
def vecClone (avail : Nat → Bool) (v : V) (h : Heap K) : Res (Option V × Heap K) :=
  if v.s ∈ h.live ∧ v.b ∈ h.live then
    let s := alloc avail [] h
    match s.1 with
    | none => .ok (none, s.2)
    | some i =>
      let b := alloc avail (h.val v.b) s.2
      match b.1 with
      | none => (free i b.2).bind fun h => .ok (none, h)
      | some j => .ok (some ⟨i, j⟩, b.2)
  else .ub

/-- A cell with its vector. -/
structure Cell where
  c : Nat
  v : V

/-- `_zVecListCellCreate`, zm_vec_list.c:10-26. -/
def cellCreate (avail : Nat → Bool) (v : V) (flag : Bool) (h : Heap K) : Res (Option Cell × Heap K) :=
  let c := alloc avail [] h
  match c.1 with
  | none => .ok (none, c.2)
  | some i =>
    if flag then
      (vecClone avail v c.2).bind fun r =>
        match r.1 with
        | none => (free i r.2).bind fun h => .ok (none, h)
        | some w => .ok (some ⟨i, w⟩, r.2)
    else .ok (some ⟨i, v⟩, c.2)

/-- A list with the heap. -/
structure St (K : Type*) where
  l : List Cell
  h : Heap K

/-- `_zVecListInsertHead`, zm_vec_list.c:29-36: success and the state. -/
def insertHead (avail : Nat → Bool) (flag : Bool) (v : V) (s : St K) : Res (Bool × St K) :=
  (cellCreate avail v flag s.h).bind fun r =>
    match r.1 with
    | none => .ok (false, ⟨s.l, r.2⟩)
    | some c => .ok (true, ⟨c :: s.l, r.2⟩)

/-- `_zVecListInsertTail`, zm_vec_list.c:39-46. -/
def insertTail (avail : Nat → Bool) (flag : Bool) (v : V) (s : St K) : Res (Bool × St K) :=
  (cellCreate avail v flag s.h).bind fun r =>
    match r.1 with
    | none => .ok (false, ⟨s.l, r.2⟩)
    | some c => .ok (true, ⟨s.l ++ [c], r.2⟩)

/-- `zVecListDestroy`, zm_vec_list.c:66-75: of a vector only the structure is released. -/
def listDestroy : List Cell → Heap K → Res (Heap K)
  | [], h => .ok h
  | c :: l, h => (free c.v.s h).bind fun h => (free c.c h).bind fun h => listDestroy l h

/-- `zVecAddrListDestroy`, zm_vec_list.c:181-189. -/
def addrListDestroy : List Cell → Heap K → Res (Heap K)
  | [], h => .ok h
  | c :: l, h => (free c.c h).bind fun h => addrListDestroy l h

/-- The user overwrites the numbers of a vector. -/
def poke (v : V) (x : List K) (h : Heap K) : Res (Heap K) := if v.b ∈ h.live then .ok { h with val := fun i => if i = v.b then x else h.val i } else .ub

/-- Calls by the user. -/
inductive Op (K : Type*) where
  | head (v : V)
  | tail (v : V)
  | poke (v : V) (x : List K)

/-- One call; `flag` distinguishes `zVecList` (copies) from `zVecAddrList` (references). -/
def step (avail : Nat → Bool) (flag : Bool) (s : St K) : Op K → Res (Bool × St K)
  | .head v => insertHead avail flag v s
  | .tail v => insertTail avail flag v s
  | .poke v x => (poke v x s.h).bind fun h => .ok (true, ⟨s.l, h⟩)

/-- A history: what every call returned, and the state at the end. -/
def run (avail : Nat → Bool) (flag : Bool) : List (Op K) → St K → Res (List Bool × St K)
  | [], s => .ok ([], s)
  | o :: ops, s => (step avail flag s o).bind fun r => (run avail flag ops r.2).bind fun t => .ok (r.1 :: t.1, t.2)

end Zm.VecList
