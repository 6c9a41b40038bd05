import Verif.Model.MDMem

/-!
# Memory of sequences of vectors (zm_seq.c)

A frame of a sequence is a cell with a vector, which is a structure and a buffer: three blocks.  Any allocation may fail; zAlloc returns the null pointer for sizes that are not positive.  What the frames
hold is in Model/Container.lean, the format of files in Model/Text.lean.
-/

namespace Zm.SeqMem
open MDMem (Hp alloc free freeAll)

/-- A vector: the addresses of the structure and of the buffer. -/
structure V where
  st : Nat
  buf : Nat

/-- `zSeqCell`, zm_seq.h:19-24. -/
structure C where
  id : Nat
  v : V

/-- `zVecAlloc`, zm_vec.c:31-45. -/
def zVecAlloc (avail : Nat → Bool) (size : Int) (h : Hp) : Res (Option V × Hp) :=
  let a := alloc avail h
  match a.1 with
  | none => .ok (none, a.2)
  | some st =>
    if 0 < size then
      let b := alloc avail a.2
      match b.1 with
      | none => (free b.2 st).bind fun h => .ok (none, h)
      | some buf => .ok (some ⟨st, buf⟩, b.2)
    else (free a.2 st).bind fun h => .ok (none, h)

/-- `zVecFree`, zm_vec.c:61-66. -/
def zVecFree (v : Option V) (h : Hp) : Res Hp :=
  match v with
  | none => .ok h
  | some v => (free h v.buf).bind fun h => free h v.st

/-- `zSeqInit`, zm_seq.c:15-21: the list is empty, whatever was in it. -/
def zSeqInit (_ : List C) : List C := []

/-- `zSeqEnqueue`, zm_seq.c:34-50: the sequence (the oldest frame first) and whether the vector was taken. -/
def zSeqEnqueue (avail : Nat → Bool) (s : List C) (v : Option V) (h : Hp) : List C × Bool × Hp :=
  match v with
  | none => (s, false, h)
  | some v =>
    let a := alloc avail h
    match a.1 with
    | none => (s, false, a.2)
    | some id => (s ++ [⟨id, v⟩], true, a.2)

/-- `zSeqDequeue`, zm_seq.c:53-63. -/
def zSeqDequeue : List C → List C × Option C
  | [] => ([], none)
  | c :: s => (s, some c)

/-- `zSeqCellFree`, zm_seq.h:26-32. -/
def zSeqCellFree (c : Option C) (h : Hp) : Res Hp :=
  match c with
  | none => .ok h
  | some c => (zVecFree (some c.v) h).bind fun h => free h c.id

/-- `zSeqFree`, zm_seq.c:24-31; the loop ends since each turn takes a cell out. -/
def zSeqFree : Nat → List C → Hp → Res (List C × Hp)
  | 0, s, h => .ok (s, h)
  | k + 1, s, h =>
    if s.isEmpty then .ok (s, h)
    else
      let d := zSeqDequeue s
      (zSeqCellFree d.2 h).bind fun h => zSeqFree k d.1 h

/-- What a file has for a frame: whether there is a number for the interval, and the number of elements, if one is there. -/
structure Rec where
  dt : Bool
  size : Option Int

/-- `zVecFScan`, zm_vec.c:636-654; missing elements are no failure. -/
def zVecFScan (avail : Nat → Bool) (size : Option Int) (h : Hp) : Res (Option V × Hp) :=
  match size with
  | none => .ok (none, h)
  | some n => zVecAlloc avail n h

/-- The loop of `zSeqFScan`, zm_seq.c:98-114. -/
def scanLoop (avail : Nat → Bool) : List Rec → List C → Hp → Res (List C × Hp)
  | [], s, h => .ok (s, h)
  | r :: rs, s, h =>
    let a := alloc avail h
    match a.1 with
    | none => .ok (s, a.2)
    | some id =>
      if r.dt then
        (zVecFScan avail r.size a.2).bind fun v =>
        match v.1 with
        | none => (free v.2 id).bind fun h => .ok (s, h)
        | some w => scanLoop avail rs (s ++ [⟨id, w⟩]) v.2
      else .ok (s, a.2)

/-- `zSeqFScan`, zm_seq.c:93-116. -/
def zSeqFScan (avail : Nat → Bool) (file : List Rec) (s : List C) (h : Hp) : Res (List C × Hp) := scanLoop avail file (zSeqInit s) h

/-- What a user does with a sequence between its initialisation and the end: they allocate a vector and put it into the sequence, releasing it if it is refused; take a frame out and release it; read
a file; or free the sequence, which may be used on. -/
inductive Op where
  | push (size : Int)
  | pop
  | scan (file : List Rec)
  | free

/-- One of these. -/
def step (avail : Nat → Bool) (x : List C × Hp) : Op → Res (List C × Hp)
  | .push n =>
    (zVecAlloc avail n x.2).bind fun v =>
    let e := zSeqEnqueue avail x.1 v.1 v.2
    if e.2.1 then .ok (e.1, e.2.2) else (zVecFree v.1 e.2.2).bind fun h => .ok (e.1, h)
  | .pop =>
    let d := zSeqDequeue x.1
    (zSeqCellFree d.2 x.2).bind fun h => .ok (d.1, h)
  | .scan file => zSeqFScan avail file x.1 x.2
  | .free => zSeqFree x.1.length x.1 x.2

/-- One after the other. -/
def run (avail : Nat → Bool) : List Op → List C × Hp → Res (List C × Hp)
  | [], x => .ok x
  | o :: os, x => (step avail x o).bind fun x => run avail os x

end Zm.SeqMem
