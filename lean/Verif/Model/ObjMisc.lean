import Verif.Model.ObjPart

/-!
# Model of diagonal matrices, shifts, exchange of elements and filling of arrays of vectors, of objects on a heap
-/

namespace Zm.Obj
variable {K : Type*} [Field K] [LinearOrder K] [IsStrictOrderedRing K]

/-- `zMatDiag`, zm_mat.c:117-136, through `zRawMatDiag`, zm_raw_mat.c:62-69. -/
def zMatDiag (m d : Nat) (h : Hp K) : Res (Hp K × Bool) :=
  (hd h m).bind fun dm =>
  if dm.rows ≠ dm.cols then .ok (h, false)
  else (hd h d).bind fun dd =>
  if dm.cols ≠ dd.cols then .ok (h, false)
  else (bufOf dm).bind fun b => (bufOf dd).bind fun s =>
    (forUpM 0 dm.rows (fun i h => rawVec1 0 b (i * dm.colcap) dm.cols h) h).bind fun h =>
    (forUpM 0 (min dm.rows dm.cols) (fun i h => (rd h s i).bind fun x => wr h b (i * (dm.colcap + 1)) x) h).bind fun h => .ok (h, true)

/-- `zVecShift`, zm_vec.c:202-206, through `zRawVecShift`, zm_raw_vec.c:47-50: the size of the destination is not examined. -/
def zVecShift (p q : Nat) (c : K) (h : Hp K) : Res (Hp K) :=
  (hd h p).bind fun ds => (hd h q).bind fun dd => (bufOf ds).bind fun s => (bufOf dd).bind fun d =>
  forUpM 0 ds.cols (fun i h => (rd h s i).bind fun x => wr h d i (x + c)) h

/-- `zMatShift`, zm_mat.c:391-397: the loop runs over the rows. -/
def zMatShift (m : Nat) (c : K) (h : Hp K) : Res (Hp K) :=
  (hd h m).bind fun d => (bufOf d).bind fun b =>
  forUpM 0 d.rows (fun i h => (rd h b (i * d.colcap + i)).bind fun x => wr h b (i * d.colcap + i) (x + c)) h

/-- `zVecSwap`, zm_vec.c:216-223, through `zRawVecSwap`, zm_raw_vec.c:53-57. -/
def zVecSwap (v i1 i2 : Nat) (h : Hp K) : Res (Hp K × Bool) :=
  (hd h v).bind fun d =>
  if i1 > d.cols ∨ i2 > d.cols then .ok (h, false)
  else (bufOf d).bind fun b =>
    ((rd h b i1).bind fun tmp => (rd h b i2).bind fun x => (wr h b i1 x).bind fun h => wr h b i2 tmp).bind fun h => .ok (h, true)

/-- The loop of `zVecArrayFill`, zm_vec_array.c:44-45. -/
def fillGo (v : Nat) : List Nat → Hp K → Res (Hp K)
  | [], h => .ok h
  | p :: l, h => (zVecCopyNC v p h).bind fun h => fillGo v l h

/-- `zVecArrayFill`, zm_vec_array.c:36-47: only the size of the first vector is examined; an array without vectors has none, and it is read all the same. -/
def zVecArrayFill (array : List Nat) (v : Nat) (h : Hp K) : Res (Hp K × Bool) :=
  match array with
  | [] => .ub
  | p :: l => (hd h p).bind fun d0 => (hd h v).bind fun dv =>
    if d0.cols ≠ dv.cols then .ok (h, false) else (fillGo v (p :: l) h).bind fun h => .ok (h, true)

/-- What a client may do: what is in `POp`, and these functions. -/
inductive QOp (K : Type*)
  | base (o : POp K)
  | diag (x z : Nat)
  | vshift (c : K) (x z : Nat)
  | mshift (c : K) (x : Nat)
  | vswap (x i1 i2 : Nat)
  | fill (xs : List Nat) (v : Nat)

/-- The pointers in an array of variables, if none is null. -/
def ptrs (s : Cl K) : List Nat → Option (List Nat)
  | [] => some []
  | x :: l =>
    match (s.var x).2, ptrs s l with
    | some p, some l => some (p :: l)
    | _, _ => none

/-- One step. -/
def qstep (tol : K) (avail : Nat → Bool) (s : Cl K) (o : QOp K) : Res (Cl K) :=
  match o with
  | .base o => pstep tol avail s o
  | .diag x z =>
    if (s.var x).1 = .vec ∧ (s.var z).1 = .mat then
      match (s.var x).2, (s.var z).2 with
      | some p, some q => (zMatDiag q p s.h).bind fun a => .ok { s with h := a.1 }
      | _, _ => .ok s
    else .ok s
  | .vshift c x z =>
    if (s.var x).1 = .vec ∧ (s.var z).1 = .vec then
      match (s.var x).2, (s.var z).2 with
      | some p, some q => (zVecShift p q c s.h).bind fun h => .ok { s with h := h }
      | _, _ => .ok s
    else .ok s
  | .mshift c x =>
    if (s.var x).1 = .mat then
      match (s.var x).2 with
      | some p => (zMatShift p c s.h).bind fun h => .ok { s with h := h }
      | none => .ok s
    else .ok s
  | .vswap x i1 i2 =>
    if (s.var x).1 = .vec then
      match (s.var x).2 with
      | some p => (zVecSwap p i1 i2 s.h).bind fun a => .ok { s with h := a.1 }
      | none => .ok s
    else .ok s
  | .fill xs v =>
    match ptrs s xs, (s.var v).2 with
    | some l, some p => (zVecArrayFill l p s.h).bind fun a => .ok { s with h := a.1 }
    | _, _ => .ok s

/-- A history. -/
def qrun (tol : K) (avail : Nat → Bool) : List (QOp K) → Cl K → Res (Cl K)
  | [], s => .ok s
  | o :: l, s => (qstep tol avail s o).bind fun s => qrun tol avail l s

end Zm.Obj
