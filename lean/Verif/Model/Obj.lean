import Verif.Base.Res
import Mathlib.Tactic.TypeStar
import Mathlib.Algebra.Group.Defs

/-!
# Vectors and matrices as objects: creation, cloning, copying, resizing and release (zm_vec.c, zm_mat.c, zm_cvec.c, zm_cmat.c)

A vector or a matrix is a pointer to a header, which holds the sizes, the capacities and a pointer to a buffer of elements.  Header and buffer are blocks of a heap; every allocation may fail.
Reading or writing a block that is not live, or a cell beyond the end of a buffer, is undefined, and so are dereferencing the null pointer, reading more arguments than were passed and copying between
overlapping places.  The element type is arbitrary.  The header of a vector is that of a matrix of one row.  Sizes are natural numbers (no memory is given out for a negative size as for zero); the
product of the two sizes of a matrix is assumed not to overflow.
-/

namespace Zm.Obj
variable {α : Type*} [Zero α]

/-- `zVecStruct` and `zMatStruct`, zm_vec.h:20-60 and zm_mat.h:20-60, through `ZEDA_DEF_ARRAY_CLASS` and `ZEDA_DEF_ARRAY2_CLASS`. -/
structure Hdr where
  buf : Option Nat := none
  rowcap : Nat := 0
  colcap : Nat := 0
  rows : Nat := 0
  cols : Nat := 0
deriving DecidableEq, Repr

/-- The heap: allocations tried, the next address, the live blocks, the headers, and the lengths and elements of the buffers. -/
structure Hp (α : Type*) where
  t : Nat := 0
  next : Nat := 0
  live : List Nat := []
  hdr : Nat → Hdr := fun _ => {}
  len : Nat → Nat := fun _ => 0
  dat : Nat → Nat → α

/-- `zAlloc( zVecStruct, 1 )`: a zeroed header. -/
def newHdr (avail : Nat → Bool) (h : Hp α) : Option Nat × Hp α :=
  if avail h.t then
    (some h.next, { h with t := h.t + 1, next := h.next + 1, live := h.next :: h.live, hdr := fun p => if p = h.next then {} else h.hdr p })
  else (none, { h with t := h.t + 1 })

/-- `zAlloc( double, n )`: a zeroed buffer; without elements no memory is asked for. -/
def newBuf (avail : Nat → Bool) (n : Nat) (h : Hp α) : Option Nat × Hp α :=
  if n = 0 then (none, h)
  else if avail h.t then
    (some h.next, { h with t := h.t + 1, next := h.next + 1, live := h.next :: h.live, len := fun p => if p = h.next then n else h.len p,
                           dat := fun p => if p = h.next then fun _ => 0 else h.dat p })
  else (none, { h with t := h.t + 1 })

/-- `free`, of a block that is live. -/
def free (h : Hp α) (p : Nat) : Res (Hp α) := if p ∈ h.live then .ok { h with live := h.live.erase p } else .ub

/-- `zFree`: nothing for the null pointer. -/
def free? (h : Hp α) : Option Nat → Res (Hp α)
  | none => .ok h
  | some p => free h p

/-- Reading a header. -/
def hd (h : Hp α) (p : Nat) : Res Hdr := if p ∈ h.live then .ok (h.hdr p) else .ub

/-- The buffer to which a header points. -/
def bufOf (d : Hdr) : Res Nat :=
  match d.buf with
  | some b => .ok b
  | none => .ub

/-- Reading and writing a cell of a buffer. -/
def rd (h : Hp α) (b k : Nat) : Res α := if b ∈ h.live ∧ k < h.len b then .ok (h.dat b k) else .ub
def wr (h : Hp α) (b k : Nat) (x : α) : Res (Hp α) :=
  if b ∈ h.live ∧ k < h.len b then .ok { h with dat := fun b' k' => if b' = b ∧ k' = k then x else h.dat b' k' } else .ub

/-- `memcpy` of `n` elements from cell `i` of the buffer `s` to cell `j` of the buffer `d`. -/
def memcpy (s i d j n : Nat) (h : Hp α) : Res (Hp α) :=
  if s = d ∧ 0 < n ∧ ¬ (i + n ≤ j ∨ j + n ≤ i) then .ub
  else forUpM 0 n (fun k h => (rd h s (i + k)).bind fun x => wr h d (j + k) x) h

/-- `va_arg`: the next argument and those after it. -/
def vaArg : List α → Res (α × List α)
  | [] => .ub
  | a :: l => .ok (a, l)

/-- `if( !( v = … ) ) return NULL;` and what follows. -/
def orNull (r : Option Nat × Hp α) (K : Nat → Hp α → Res (Option Nat × Hp α)) : Res (Option Nat × Hp α) :=
  match r.1 with
  | none => .ok (none, r.2)
  | some p => K p r.2

/-- An element of an array of the client. -/
def arrElem (a : List α) (k : Nat) : Res α :=
  match a[k]? with
  | some x => .ok x
  | none => .ub

/-- `zVecAlloc`, zm_vec.c:31-45, and `zCVecAlloc`, zm_cvec.c:10-24. -/
def zVecAlloc (avail : Nat → Bool) (size : Nat) (h : Hp α) : Res (Option Nat × Hp α) :=
  match newHdr avail h with
  | (none, h) => .ok (none, h)
  | (some p, h) =>
    match newBuf avail size h with
    | (none, h) => (free h p).bind fun h => .ok (none, h)
    | (some b, h) => .ok (some p, { h with hdr := fun q => if q = p then ⟨some b, 1, size, 1, size⟩ else h.hdr q })

/-- `zMatAlloc`, zm_mat.c:32-46, and `zCMatAlloc`, zm_cmat.c:10-24. -/
def zMatAlloc (avail : Nat → Bool) (rowsize colsize : Nat) (h : Hp α) : Res (Option Nat × Hp α) :=
  match newHdr avail h with
  | (none, h) => .ok (none, h)
  | (some p, h) =>
    match newBuf avail (rowsize * colsize) h with
    | (none, h) => (free h p).bind fun h => .ok (none, h)
    | (some b, h) => .ok (some p, { h with hdr := fun q => if q = p then ⟨some b, rowsize, colsize, rowsize, colsize⟩ else h.hdr q })

/-- `zVecFree`, zm_vec.c:60-65, `zMatFree`, zm_mat.c:61-67, `zCVecFree`, zm_cvec.c:27-32, and `zCMatFree`, zm_cmat.c:27-33. -/
def zMatFree (h : Hp α) : Option Nat → Res (Hp α)
  | none => .ok h
  | some p => (hd h p).bind fun d => (free? h d.buf).bind fun h => free h p

/-- `zVecFreeAtOnce`, zm_vec.c:68-80, and `zMatFreeAtOnce`, zm_mat.c:70-82: the arguments may be more than `num`, but not fewer. -/
def zMatFreeAtOnce : Nat → List (Option Nat) → Hp α → Res (Hp α)
  | 0, _, h => .ok h
  | _ + 1, [], _ => .ub
  | n + 1, m :: l, h => (zMatFree h m).bind fun h => zMatFreeAtOnce n l h

/-- `zVecSetElemVList`, zm_vec.c:10-17. -/
def zVecSetElemVList (p : Nat) (args : List α) (h : Hp α) : Res (Hp α × List α) :=
  (hd h p).bind fun d => (bufOf d).bind fun b =>
  forUpM 0 d.cols (fun i (s : Hp α × List α) => (vaArg s.2).bind fun a => (wr s.1 b i a.1).bind fun h => .ok (h, a.2)) (h, args)

/-- `_zMatSetElemList`, zm_mat.c:10-18. -/
def _zMatSetElemList (p : Nat) (args : List α) (h : Hp α) : Res (Hp α × List α) :=
  (hd h p).bind fun d => (bufOf d).bind fun b =>
  forUpM 0 d.rows (fun i s => forUpM 0 d.cols (fun j (s : Hp α × List α) =>
    (vaArg s.2).bind fun a => (wr s.1 b (i * d.colcap + j) a.1).bind fun h => .ok (h, a.2)) s) (h, args)

/-- `zVecSetElemList`, zm_vec.c:20-28. -/
def zVecSetElemList (p : Nat) (args : List α) (h : Hp α) : Res (Hp α) := (zVecSetElemVList p args h).bind fun s => .ok s.1
/-- `zMatSetElemList`, zm_mat.c:21-29. -/
def zMatSetElemList (p : Nat) (args : List α) (h : Hp α) : Res (Hp α) := (_zMatSetElemList p args h).bind fun s => .ok s.1

/-- `zVecCreateList`, zm_vec.c:48-57. -/
def zVecCreateList (avail : Nat → Bool) (size : Nat) (args : List α) (h : Hp α) : Res (Option Nat × Hp α) :=
  (zVecAlloc avail size h).bind fun r =>
  orNull r fun p h => (zVecSetElemVList p args h).bind fun s => .ok (some p, s.1)

/-- `zMatCreateList`, zm_mat.c:49-58. -/
def zMatCreateList (avail : Nat → Bool) (row col : Nat) (args : List α) (h : Hp α) : Res (Option Nat × Hp α) :=
  (zMatAlloc avail row col h).bind fun r =>
  orNull r fun p h => (_zMatSetElemList p args h).bind fun s => .ok (some p, s.1)

/-- `zVecCopyNC`, zm_vec.c:97-101. -/
def zVecCopyNC (src dest : Nat) (h : Hp α) : Res (Hp α) :=
  (hd h src).bind fun ds => (hd h dest).bind fun dd => (bufOf ds).bind fun s => (bufOf dd).bind fun d => memcpy s 0 d 0 dd.cols h

/-- `zCVecCopyNC`, zm_cvec.c:55-62. -/
def zCVecCopyNC (src dest : Nat) (h : Hp α) : Res (Hp α) :=
  (hd h src).bind fun ds => (hd h dest).bind fun dd => (bufOf ds).bind fun s => (bufOf dd).bind fun d =>
  forUpM 0 dd.cols (fun i h => (rd h s i).bind fun x => wr h d i x) h

/-- `zMatCopyNC`, zm_mat.c:152-156. -/
def zMatCopyNC (src dest : Nat) (h : Hp α) : Res (Hp α) :=
  (hd h src).bind fun ds => (hd h dest).bind fun dd => (bufOf ds).bind fun s => (bufOf dd).bind fun d =>
  forUpM 0 dd.rows (fun i h => memcpy s (i * ds.colcap) d (i * dd.colcap) dd.cols h) h

/-- `zCMatCopyNC`, zm_cmat.c:82-90: the elements lie one after the other. -/
def zCMatCopyNC (src dest : Nat) (h : Hp α) : Res (Hp α) :=
  (hd h src).bind fun ds => (hd h dest).bind fun dd => (bufOf ds).bind fun s => (bufOf dd).bind fun d =>
  forUpM 0 (ds.rows * ds.cols) (fun i h => (rd h s i).bind fun x => wr h d i x) h

/-- `zVecCopy`, zm_vec.c:104-107; the answer `false` is the null pointer. -/
def zVecCopy (src dest : Nat) (h : Hp α) : Res (Hp α × Bool) :=
  (hd h src).bind fun ds => (hd h dest).bind fun dd =>
  if ds.cols = dd.cols then (zVecCopyNC src dest h).bind fun h => .ok (h, true) else .ok (h, false)

/-- `zMatCopy`, zm_mat.c:159-166. -/
def zMatCopy (src dest : Nat) (h : Hp α) : Res (Hp α × Bool) :=
  (hd h src).bind fun ds => (hd h dest).bind fun dd =>
  if ds.rows = dd.rows ∧ ds.cols = dd.cols then (zMatCopyNC src dest h).bind fun h => .ok (h, true) else .ok (h, false)

/-- `zCVecCopy`, zm_cvec.c:65-68. -/
def zCVecCopy (src dest : Nat) (h : Hp α) : Res (Hp α × Bool) :=
  (hd h src).bind fun ds => (hd h dest).bind fun dd =>
  if ds.cols = dd.cols then (zCVecCopyNC src dest h).bind fun h => .ok (h, true) else .ok (h, false)

/-- `zCMatCopy`, zm_cmat.c:93-100. -/
def zCMatCopy (src dest : Nat) (h : Hp α) : Res (Hp α × Bool) :=
  (hd h src).bind fun ds => (hd h dest).bind fun dd =>
  if ds.rows = dd.rows ∧ ds.cols = dd.cols then (zCMatCopyNC src dest h).bind fun h => .ok (h, true) else .ok (h, false)

/-- `zVecClone`, zm_vec.c:118-126. -/
def zVecClone (avail : Nat → Bool) (src : Option Nat) (h : Hp α) : Res (Option Nat × Hp α) :=
  match src with
  | none => .ok (none, h)
  | some s =>
    (hd h s).bind fun d => (zVecAlloc avail d.cols h).bind fun r =>
    orNull r fun p h => (zVecCopyNC s p h).bind fun h => .ok (some p, h)

/-- `zMatClone`, zm_mat.c:180-188. -/
def zMatClone (avail : Nat → Bool) (src : Option Nat) (h : Hp α) : Res (Option Nat × Hp α) :=
  match src with
  | none => .ok (none, h)
  | some s =>
    (hd h s).bind fun d => (zMatAlloc avail d.rows d.cols h).bind fun r =>
    orNull r fun p h => (zMatCopyNC s p h).bind fun h => .ok (some p, h)

/-- `zCVecClone`, zm_cvec.c:71-79. -/
def zCVecClone (avail : Nat → Bool) (src : Option Nat) (h : Hp α) : Res (Option Nat × Hp α) :=
  match src with
  | none => .ok (none, h)
  | some s =>
    (hd h s).bind fun d => (zVecAlloc avail d.cols h).bind fun r =>
    orNull r fun p h => (zCVecCopyNC s p h).bind fun h => .ok (some p, h)

/-- `zCMatClone`, zm_cmat.c:103-111. -/
def zCMatClone (avail : Nat → Bool) (src : Option Nat) (h : Hp α) : Res (Option Nat × Hp α) :=
  match src with
  | none => .ok (none, h)
  | some s =>
    (hd h s).bind fun d => (zMatAlloc avail d.rows d.cols h).bind fun r =>
    orNull r fun p h => (zCMatCopyNC s p h).bind fun h => .ok (some p, h)

/-- `zMatTNC`, zm_mat.c:638-642, with `zRawMatT`, zm_raw_mat.c:325-329: column `i` of the source is row `i` of the destination. -/
def zMatTNC (src dest : Nat) (h : Hp α) : Res (Hp α) :=
  (hd h src).bind fun ds => (hd h dest).bind fun dd => (bufOf ds).bind fun s => (bufOf dd).bind fun d =>
  forUpM 0 ds.cols (fun i h => forUpM 0 ds.rows (fun j h => (rd h s (j * ds.colcap + i)).bind fun x => wr h d (i * dd.colcap + j) x) h) h

/-- `zMatTClone`, zm_mat.c:669-677. -/
def zMatTClone (avail : Nat → Bool) (src : Option Nat) (h : Hp α) : Res (Option Nat × Hp α) :=
  match src with
  | none => .ok (none, h)
  | some s =>
    (hd h s).bind fun d => (zMatAlloc avail d.cols d.rows h).bind fun r =>
    orNull r fun p h => (zMatTNC s p h).bind fun h => .ok (some p, h)

/-- `zVecCopyArray`, zm_vec.c:110-115: the elements of the array are read one by one; beyond its end that is undefined. -/
def zVecCopyArray (array : List α) (s p : Nat) (h : Hp α) : Res (Hp α × Bool) :=
  (hd h p).bind fun d =>
  if d.cols ≠ s then .ok (h, false)
  else (bufOf d).bind fun b =>
    (forUpM 0 s (fun k h => (arrElem array k).bind fun x => wr h b k x) h).bind fun h => .ok (h, true)

/-- `zMatCopyArray`, zm_mat.c:169-177. -/
def zMatCopyArray (array : List α) (rowsize colsize p : Nat) (h : Hp α) : Res (Hp α × Bool) :=
  (hd h p).bind fun d =>
  if d.rows ≠ rowsize ∨ d.cols ≠ colsize then .ok (h, false)
  else (bufOf d).bind fun b =>
    (forUpM 0 rowsize (fun i h => forUpM 0 colsize (fun k h => (arrElem array (i * colsize + k)).bind fun x => wr h b (i * d.colcap + k) x) h) h).bind fun h => .ok (h, true)

/-- `zVecCloneArray`, zm_vec.c:129-136. -/
def zVecCloneArray (avail : Nat → Bool) (array : List α) (s : Nat) (h : Hp α) : Res (Option Nat × Hp α) :=
  (zVecAlloc avail s h).bind fun r =>
  orNull r fun p h => (zVecCopyArray array s p h).bind fun a => .ok (some p, a.1)

/-- `zMatCloneArray`, zm_mat.c:191-198. -/
def zMatCloneArray (avail : Nat → Bool) (array : List α) (rowsize colsize : Nat) (h : Hp α) : Res (Option Nat × Hp α) :=
  (zMatAlloc avail rowsize colsize h).bind fun r =>
  orNull r fun p h => (zMatCopyArray array rowsize colsize p h).bind fun a => .ok (some p, a.1)

/-- `zMatRowResize`, zm_mat.c:490-494: `zArray2RowResize` sets the number of rows unless it exceeds the capacity. -/
def zMatRowResize (p size : Nat) (h : Hp α) : Res (Hp α × Bool) :=
  (hd h p).bind fun d =>
  let d' : Hdr := if size ≤ d.rowcap then { d with rows := size } else d
  .ok ({ h with hdr := fun q => if q = p then d' else h.hdr q }, d'.rows == size)

/-- `zMatColResize`, zm_mat.c:497-501, and `zVecResize`, zm_vec.c:313-317. -/
def zMatColResize (p size : Nat) (h : Hp α) : Res (Hp α × Bool) :=
  (hd h p).bind fun d =>
  let d' : Hdr := if size ≤ d.colcap then { d with cols := size } else d
  .ok ({ h with hdr := fun q => if q = p then d' else h.hdr q }, d'.cols == size)

/-- `zMatResize`, zm_mat.c:504-508: `zArray2Resize` treats the two sizes one after the other. -/
def zMatResize (p rowsize colsize : Nat) (h : Hp α) : Res (Hp α × Bool) :=
  (zMatRowResize p rowsize h).bind fun a => (zMatColResize p colsize a.1).bind fun b => .ok (b.1, a.2 && b.2)

/-- `zMatElem`, zm_mat.h:86: 0 for a position that is not valid. -/
def zMatElem (p i j : Nat) (h : Hp α) : Res α :=
  (hd h p).bind fun d =>
  if i < d.rows ∧ j < d.cols then (bufOf d).bind fun b => rd h b (i * d.colcap + j) else .ok 0

/-- `zMatSetElem`, zm_mat.h:90: nothing for a position that is not valid. -/
def zMatSetElem (p i j : Nat) (x : α) (h : Hp α) : Res (Hp α) :=
  (hd h p).bind fun d =>
  if i < d.rows ∧ j < d.cols then (bufOf d).bind fun b => wr h b (i * d.colcap + j) x else .ok h

/-- The four classes of objects. -/
inductive Kind
  | vec | mat | cvec | cmat
deriving DecidableEq, Repr

/-- What a client does.  Objects are numbered in the order of the requests; a request that fails leaves the null pointer. -/
inductive Op (α : Type*)
  | alloc (k : Kind) (r c : Nat)
  | create (k : Kind) (r c : Nat) (args : List α)
  | cloneArray (k : Kind) (r c : Nat) (a : List α)
  | clone (x : Nat)
  | tclone (x : Nat)
  | setList (x : Nat) (args : List α)
  | set (x i j : Nat) (v : α)
  | copy (x y : Nat)
  | resize (x r c : Nat)
  | free (x : Nat)

/-- The client: its variables with their classes, and the heap. -/
structure Cl (α : Type*) where
  vars : List (Kind × Option Nat)
  h : Hp α

/-- The function for a class: a vector has one row.  Complex vectors and matrices are not created from lists or arrays and cannot be resized: there are no such functions. -/
def allocK (avail : Nat → Bool) (k : Kind) (r c : Nat) (h : Hp α) : Res (Option Nat × Hp α) :=
  match k with
  | .vec => zVecAlloc avail c h
  | .cvec => zVecAlloc avail c h
  | .mat => zMatAlloc avail r c h
  | .cmat => zMatAlloc avail r c h
def createK (avail : Nat → Bool) (k : Kind) (r c : Nat) (args : List α) (h : Hp α) : Res (Option Nat × Hp α) :=
  match k with
  | .vec => zVecCreateList avail c args h
  | .mat => zMatCreateList avail r c args h
  | .cvec => .ok (none, h)
  | .cmat => .ok (none, h)
def cloneArrayK (avail : Nat → Bool) (k : Kind) (r c : Nat) (a : List α) (h : Hp α) : Res (Option Nat × Hp α) :=
  match k with
  | .vec => zVecCloneArray avail a c h
  | .mat => zMatCloneArray avail a r c h
  | .cvec => .ok (none, h)
  | .cmat => .ok (none, h)
def cloneK (avail : Nat → Bool) (k : Kind) (src : Option Nat) (h : Hp α) : Res (Option Nat × Hp α) :=
  match k with
  | .vec => zVecClone avail src h
  | .cvec => zCVecClone avail src h
  | .mat => zMatClone avail src h
  | .cmat => zCMatClone avail src h
def copyK (k : Kind) (src dest : Nat) (h : Hp α) : Res (Hp α × Bool) :=
  match k with
  | .vec => zVecCopy src dest h
  | .cvec => zCVecCopy src dest h
  | .mat => zMatCopy src dest h
  | .cmat => zCMatCopy src dest h
def setListK (k : Kind) (p : Nat) (args : List α) (h : Hp α) : Res (Hp α) :=
  match k with
  | .vec => zVecSetElemList p args h
  | .mat => zMatSetElemList p args h
  | .cvec => .ok h
  | .cmat => .ok h
def resizeK (k : Kind) (p r c : Nat) (h : Hp α) : Res (Hp α × Bool) :=
  match k with
  | .vec => zMatColResize p c h
  | .mat => zMatResize p r c h
  | .cvec => .ok (h, false)
  | .cmat => .ok (h, false)

/-- The variable `x`: unused numbers hold the null pointer. -/
def Cl.var (s : Cl α) (x : Nat) : Kind × Option Nat := s.vars.getD x (.mat, none)

/-- A new variable. -/
def Cl.add (s : Cl α) (k : Kind) (r : Option Nat × Hp α) : Cl α := ⟨s.vars ++ [(k, r.1)], r.2⟩

/-- One step.  The null pointer is handed only to the functions that take it, an object is copied only to another one of its class, and a variable is set to the null pointer after the release. -/
def step (avail : Nat → Bool) (s : Cl α) (o : Op α) : Res (Cl α) :=
  match o with
  | .alloc k r c => (allocK avail k r c s.h).bind fun a => .ok (s.add k a)
  | .create k r c args => (createK avail k r c args s.h).bind fun a => .ok (s.add k a)
  | .cloneArray k r c l => (cloneArrayK avail k r c l s.h).bind fun a => .ok (s.add k a)
  | .clone x => (cloneK avail (s.var x).1 (s.var x).2 s.h).bind fun a => .ok (s.add (s.var x).1 a)
  | .tclone x =>
    if (s.var x).1 = .mat then (zMatTClone avail (s.var x).2 s.h).bind fun a => .ok (s.add .mat a) else .ok s
  | .setList x args =>
    match (s.var x).2 with
    | none => .ok s
    | some p => (setListK (s.var x).1 p args s.h).bind fun h => .ok { s with h := h }
  | .set x i j v =>
    match (s.var x).2 with
    | none => .ok s
    | some p => (zMatSetElem p i j v s.h).bind fun h => .ok { s with h := h }
  | .copy x y =>
    if x = y ∨ (s.var x).1 ≠ (s.var y).1 then .ok s
    else match (s.var x).2, (s.var y).2 with
      | some p, some q => (copyK (s.var x).1 p q s.h).bind fun a => .ok { s with h := a.1 }
      | _, _ => .ok s
  | .resize x r c =>
    match (s.var x).2 with
    | none => .ok s
    | some p => (resizeK (s.var x).1 p r c s.h).bind fun a => .ok { s with h := a.1 }
  | .free x => (zMatFree s.h (s.var x).2).bind fun h => .ok ⟨s.vars.set x ((s.var x).1, none), h⟩

/-- A history. -/
def run (avail : Nat → Bool) : List (Op α) → Cl α → Res (Cl α)
  | [], s => .ok s
  | o :: l, s => (step avail s o).bind fun s => run avail l s

end Zm.Obj
