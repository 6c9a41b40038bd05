import Verif.Model.Obj
import Mathlib.Algebra.Order.Field.Basic

/-!
# Model of arithmetic on vectors and matrices as objects on a heap

The operands and the destination of a function may be the same object: the functions with names in `DRC` are macros that pass one object twice
(zm_vec.h:440-447, zm_mat.h:417-422).  `double` is an ordered field, and `zTOL` in `zIsTiny` is the parameter `tol`.
-/

namespace Zm.Obj
variable {K : Type*} [Field K] [LinearOrder K] [IsStrictOrderedRing K]

/-- The loops of `zRawVecAdd`, `zRawVecSub`, `zRawVecAmp` and `zRawVecCat`, zm_raw_vec.c:92-101, 122-125, 134-137, with the expression `f` of the
two elements, from the places `i1`, `i2` on to the place `i`. -/
def rawVec3 (f : K → K → K) (b1 i1 b2 i2 b i size : Nat) (h : Hp K) : Res (Hp K) :=
  forUpM 0 size (fun j h => (rd h b1 (i1 + j)).bind fun x => (rd h b2 (i2 + j)).bind fun y => wr h b (i + j) (f x y)) h

/-- The loops of `zRawVecRev` and `zRawVecMul`, zm_raw_vec.c:104-113. -/
def rawVec2 (f : K → K) (b1 i1 b i size : Nat) (h : Hp K) : Res (Hp K) :=
  forUpM 0 size (fun j h => (rd h b1 (i1 + j)).bind fun x => wr h b (i + j) (f x)) h

/-- The loop of `zRawVecSetAll`, zm_raw_vec.c:17-20, and `zRawVecZero` (`memset`), zm_raw_vec.h:25. -/
def rawVec1 (v : K) (b i size : Nat) (h : Hp K) : Res (Hp K) := forUpM 0 size (fun j h => wr h b (i + j) v) h

/-- `zRawVecTouchup`, zm_raw_vec.c:10-14. -/
def rawVecTouchup (t : K) (b i size : Nat) (h : Hp K) : Res (Hp K) :=
  forUpM 0 size (fun j h => (rd h b (i + j)).bind fun x => if |x| ≤ t then wr h b (i + j) 0 else .ok h) h

/-- `zVecAddNC`, `zVecSubNC`, `zVecAmpNC`, `zVecCatNC`, zm_vec.c:320-331, 356-360, 371-375. -/
def vec3NC (f : K → K → K) (p1 p2 p : Nat) (h : Hp K) : Res (Hp K) :=
  (hd h p1).bind fun d1 => (hd h p2).bind fun d2 => (hd h p).bind fun d => (bufOf d1).bind fun b1 => (bufOf d2).bind fun b2 => (bufOf d).bind fun b =>
  rawVec3 f b1 0 b2 0 b 0 d.cols h

/-- `zVecRevNC`, `zVecMulNC`, zm_vec.c:334-345; `zVecDivNC`, 348-352, through `zRawVecDiv`, zm_raw_vec.c:116-119. -/
def vec2NC (f : K → K) (p1 p : Nat) (h : Hp K) : Res (Hp K) :=
  (hd h p1).bind fun d1 => (hd h p).bind fun d => (bufOf d1).bind fun b1 => (bufOf d).bind fun b => rawVec2 f b1 0 b 0 d.cols h

/-- `zMatAddNC`, `zMatSubNC`, `zMatCatNC`, zm_mat.c:511-522, 546-550, through `zRawMatAdd`, `zRawMatSub`, `zRawMatCat`, zm_raw_mat.c:195-206, 229-233. -/
def mat3NC (f : K → K → K) (p1 p2 p : Nat) (h : Hp K) : Res (Hp K) :=
  (hd h p1).bind fun d1 => (hd h p2).bind fun d2 => (hd h p).bind fun d => (bufOf d1).bind fun b1 => (bufOf d2).bind fun b2 => (bufOf d).bind fun b =>
  forUpM 0 d.rows (fun i h => rawVec3 f b1 (i * d1.colcap) b2 (i * d2.colcap) b (i * d.colcap) d.cols h) h

/-- `zMatRevNC`, `zMatMulNC`, `zMatDivNC`, zm_mat.c:525-543, through `zRawMatRev`, `zRawMatMul`, `zRawMatDiv`, zm_raw_mat.c:209-226. -/
def mat2NC (f : K → K) (p1 p : Nat) (h : Hp K) : Res (Hp K) :=
  (hd h p1).bind fun d1 => (hd h p).bind fun d => (bufOf d1).bind fun b1 => (bufOf d).bind fun b =>
  forUpM 0 d.rows (fun i h => rawVec2 f b1 (i * d1.colcap) b (i * d.colcap) d.cols h) h

/-- The check `__z_vec_size_check_3`, zm_vec.c:383-387, and a function that passes it; `false` is the null pointer. -/
def vecCheck3 (p1 p2 p : Nat) (F : Hp K → Res (Hp K)) (h : Hp K) : Res (Hp K × Bool) :=
  (hd h p1).bind fun d1 => (hd h p2).bind fun d2 => (hd h p).bind fun d =>
  if d1.cols ≠ d2.cols ∨ d1.cols ≠ d.cols then .ok (h, false) else (F h).bind fun h => .ok (h, true)

/-- The check `__z_vec_size_check_2`, zm_vec.c:377-381. -/
def vecCheck2 (p1 p : Nat) (F : Hp K → Res (Hp K)) (h : Hp K) : Res (Hp K × Bool) :=
  (hd h p1).bind fun d1 => (hd h p).bind fun d => if d1.cols ≠ d.cols then .ok (h, false) else (F h).bind fun h => .ok (h, true)

/-- `zMatSizeEqual`, zm_mat.h:63. -/
def matSizeEqual (d1 d2 : Hdr) : Prop := d1.rows = d2.rows ∧ d1.cols = d2.cols
instance (d1 d2 : Hdr) : Decidable (matSizeEqual d1 d2) := by unfold matSizeEqual; infer_instance

/-- The check of zm_mat.c:555-558. -/
def matCheck3 (p1 p2 p : Nat) (F : Hp K → Res (Hp K)) (h : Hp K) : Res (Hp K × Bool) :=
  (hd h p1).bind fun d1 => (hd h p2).bind fun d2 => (hd h p).bind fun d =>
  if ¬matSizeEqual d1 d2 ∨ ¬matSizeEqual d1 d then .ok (h, false) else (F h).bind fun h => .ok (h, true)

/-- The check of zm_mat.c:575-578. -/
def matCheck2 (p1 p : Nat) (F : Hp K → Res (Hp K)) (h : Hp K) : Res (Hp K × Bool) :=
  (hd h p1).bind fun d1 => (hd h p).bind fun d => if ¬matSizeEqual d1 d then .ok (h, false) else (F h).bind fun h => .ok (h, true)

/-- `zVecAdd`, zm_vec.c:390-394. -/
def zVecAdd (p1 p2 p : Nat) : Hp K → Res (Hp K × Bool) := vecCheck3 p1 p2 p (vec3NC (fun x y => x + y) p1 p2 p)
/-- `zVecSub`, zm_vec.c:397-401. -/
def zVecSub (p1 p2 p : Nat) : Hp K → Res (Hp K × Bool) := vecCheck3 p1 p2 p (vec3NC (fun x y => x - y) p1 p2 p)
/-- `zVecRev`, zm_vec.c:404-408. -/
def zVecRev (p1 p : Nat) : Hp K → Res (Hp K × Bool) := vecCheck2 p1 p (vec2NC (fun x => -x) p1 p)
/-- `zVecMul`, zm_vec.c:411-415. -/
def zVecMul (p1 : Nat) (k : K) (p : Nat) : Hp K → Res (Hp K × Bool) := vecCheck2 p1 p (vec2NC (fun x => x * k) p1 p)
/-- `zVecDiv`, zm_vec.c:418-426: a tiny divisor is refused. -/
def zVecDiv (tol : K) (p1 : Nat) (k : K) (p : Nat) (h : Hp K) : Res (Hp K × Bool) :=
  (hd h p1).bind fun d1 => (hd h p).bind fun d =>
  if d1.cols ≠ d.cols then .ok (h, false) else if |k| ≤ tol then .ok (h, false)
  else (vec2NC (fun x => x * (1 / k)) p1 p h).bind fun h => .ok (h, true)
/-- `zVecAmp`, zm_vec.c:429-433. -/
def zVecAmp (p1 p2 p : Nat) : Hp K → Res (Hp K × Bool) := vecCheck3 p1 p2 p (vec3NC (fun x y => x * y) p1 p2 p)
/-- `zVecCat`, zm_vec.c:443-447. -/
def zVecCat (p1 : Nat) (k : K) (p2 p : Nat) : Hp K → Res (Hp K × Bool) := vecCheck3 p1 p2 p (vec3NC (fun x y => x + y * k) p1 p2 p)
/-- `zMatAdd`, zm_mat.c:553-560. -/
def zMatAdd (p1 p2 p : Nat) : Hp K → Res (Hp K × Bool) := matCheck3 p1 p2 p (mat3NC (fun x y => x + y) p1 p2 p)
/-- `zMatSub`, zm_mat.c:563-570. -/
def zMatSub (p1 p2 p : Nat) : Hp K → Res (Hp K × Bool) := matCheck3 p1 p2 p (mat3NC (fun x y => x - y) p1 p2 p)
/-- `zMatRev`, zm_mat.c:573-580. -/
def zMatRev (p1 p : Nat) : Hp K → Res (Hp K × Bool) := matCheck2 p1 p (mat2NC (fun x => -x) p1 p)
/-- `zMatMul`, zm_mat.c:583-590. -/
def zMatMul (p1 : Nat) (k : K) (p : Nat) : Hp K → Res (Hp K × Bool) := matCheck2 p1 p (mat2NC (fun x => x * k) p1 p)
/-- `zMatDiv`, zm_mat.c:593-604. -/
def zMatDiv (tol : K) (p1 : Nat) (k : K) (p : Nat) (h : Hp K) : Res (Hp K × Bool) :=
  (hd h p1).bind fun d1 => (hd h p).bind fun d =>
  if ¬matSizeEqual d1 d then .ok (h, false) else if |k| ≤ tol then .ok (h, false)
  else (mat2NC (fun x => x * (1 / k)) p1 p h).bind fun h => .ok (h, true)
/-- `zMatCat`, zm_mat.c:607-614. -/
def zMatCat (p1 : Nat) (k : K) (p2 p : Nat) : Hp K → Res (Hp K × Bool) := matCheck3 p1 p2 p (mat3NC (fun x y => x + y * k) p1 p2 p)

/-- `zVecZero`, zm_vec.c:84-88. -/
def zVecZero (p : Nat) (h : Hp K) : Res (Hp K) := (hd h p).bind fun d => (bufOf d).bind fun b => rawVec1 0 b 0 d.cols h
/-- `zVecSetAll`, zm_vec.c:174-178. -/
def zVecSetAll (p : Nat) (v : K) (h : Hp K) : Res (Hp K) := (hd h p).bind fun d => (bufOf d).bind fun b => rawVec1 v b 0 d.cols h
/-- `zVecTouchup`, zm_vec.c:91-95. -/
def zVecTouchup (p : Nat) (t : K) (h : Hp K) : Res (Hp K) := (hd h p).bind fun d => (bufOf d).bind fun b => rawVecTouchup t b 0 d.cols h
/-- `zMatZero`, zm_mat.c:86-90, through `zRawMatZero`, zm_raw_mat.c:10-13. -/
def zMatZero (p : Nat) (h : Hp K) : Res (Hp K) :=
  (hd h p).bind fun d => (bufOf d).bind fun b => forUpM 0 d.rows (fun i h => rawVec1 0 b (i * d.colcap) d.cols h) h
/-- `zMatTouchup`, zm_mat.c:93-97, through `zRawMatTouchup`, zm_raw_mat.c:16-19. -/
def zMatTouchup (p : Nat) (t : K) (h : Hp K) : Res (Hp K) :=
  (hd h p).bind fun d => (bufOf d).bind fun b => forUpM 0 d.rows (fun i h => rawVecTouchup t b (i * d.colcap) d.cols h) h
/-- `zMatIdentNC`, zm_mat.c:100-104, through `zRawMatIdent`, zm_raw_mat.c:52-59. -/
def zMatIdentNC (p : Nat) (h : Hp K) : Res (Hp K) :=
  (hd h p).bind fun d => (bufOf d).bind fun b =>
  (forUpM 0 d.rows (fun i h => rawVec1 0 b (i * d.colcap) d.cols h) h).bind fun h =>
  forUpM 0 (min d.rows d.cols) (fun i h => wr h b (i * (d.colcap + 1)) 1) h
/-- `zMatIdent`, zm_mat.c:107-114. -/
def zMatIdent (p : Nat) (h : Hp K) : Res (Hp K × Bool) :=
  (hd h p).bind fun d => if d.rows ≠ d.cols then .ok (h, false) else (zMatIdentNC p h).bind fun h => .ok (h, true)

/-- Functions of two operands. -/
inductive Bin (K : Type*)
  | add | sub | amp
  | cat (k : K)

/-- Functions of one operand. -/
inductive Un (K : Type*)
  | rev
  | mul (k : K)
  | div (k : K)

/-- Functions that set one object. -/
inductive Put (K : Type*)
  | zero
  | all (v : K)
  | touchup (t : K)
  | ident

/-- What a client may do: what is in `Op`, and arithmetic on variables, any of which may be the same. -/
inductive AOp (K : Type*)
  | base (o : Op K)
  | bin (f : Bin K) (x y z : Nat)
  | un (f : Un K) (x z : Nat)
  | put (f : Put K) (z : Nat)

/-- The function of two operands for a class of objects; there is no `zMatAmp`, and the complex classes are left out. -/
def binK (k : Kind) (f : Bin K) (p1 p2 p : Nat) (h : Hp K) : Res (Hp K × Bool) :=
  match k, f with
  | .vec, .add => zVecAdd p1 p2 p h
  | .vec, .sub => zVecSub p1 p2 p h
  | .vec, .amp => zVecAmp p1 p2 p h
  | .vec, .cat c => zVecCat p1 c p2 p h
  | .mat, .add => zMatAdd p1 p2 p h
  | .mat, .sub => zMatSub p1 p2 p h
  | .mat, .cat c => zMatCat p1 c p2 p h
  | _, _ => .ok (h, false)

/-- The function of one operand for a class of objects. -/
def unK (tol : K) (k : Kind) (f : Un K) (p1 p : Nat) (h : Hp K) : Res (Hp K × Bool) :=
  match k, f with
  | .vec, .rev => zVecRev p1 p h
  | .vec, .mul c => zVecMul p1 c p h
  | .vec, .div c => zVecDiv tol p1 c p h
  | .mat, .rev => zMatRev p1 p h
  | .mat, .mul c => zMatMul p1 c p h
  | .mat, .div c => zMatDiv tol p1 c p h
  | _, _ => .ok (h, false)

/-- The function that sets an object of a class. -/
def putK (k : Kind) (f : Put K) (p : Nat) (h : Hp K) : Res (Hp K) :=
  match k, f with
  | .vec, .zero => zVecZero p h
  | .vec, .all v => zVecSetAll p v h
  | .vec, .touchup t => zVecTouchup p t h
  | .mat, .zero => zMatZero p h
  | .mat, .touchup t => zMatTouchup p t h
  | .mat, .ident => (zMatIdent p h).bind fun a => .ok a.1
  | _, _ => .ok h

/-- One step.  Operands and destination are of one class and not null. -/
def astep (tol : K) (avail : Nat → Bool) (s : Cl K) (o : AOp K) : Res (Cl K) :=
  match o with
  | .base o => step avail s o
  | .bin f x y z =>
    if (s.var x).1 = (s.var z).1 ∧ (s.var y).1 = (s.var z).1 then
      match (s.var x).2, (s.var y).2, (s.var z).2 with
      | some p1, some p2, some p => (binK (s.var z).1 f p1 p2 p s.h).bind fun a => .ok { s with h := a.1 }
      | _, _, _ => .ok s
    else .ok s
  | .un f x z =>
    if (s.var x).1 = (s.var z).1 then
      match (s.var x).2, (s.var z).2 with
      | some p1, some p => (unK tol (s.var z).1 f p1 p s.h).bind fun a => .ok { s with h := a.1 }
      | _, _ => .ok s
    else .ok s
  | .put f z =>
    match (s.var z).2 with
    | some p => (putK (s.var z).1 f p s.h).bind fun h => .ok { s with h := h }
    | none => .ok s

/-- A history. -/
def arun (tol : K) (avail : Nat → Bool) : List (AOp K) → Cl K → Res (Cl K)
  | [], s => .ok s
  | o :: l, s => (astep tol avail s o).bind fun s => arun tol avail l s

end Zm.Obj
