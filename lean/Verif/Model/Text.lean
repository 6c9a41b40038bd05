import Verif.Base.Res
import Verif.Base.Fn
import Verif.Model.Misc

/-!
# Text: polynomials as expressions, complex numbers, vectors, matrices, polynomials and sequences in files
(zm_pex.c:342-420, zm_complex.c:43-94, zm_vec.c:636-663, zm_mat.c:1037-1068, zm_seq.c:93-143)

A text is a list of pieces: numbers, and the signs and letters between them.  `rnd` is the rounding of the format `%.10g` to ten
digits of a non-negative number.  Spaces, commas, brackets and ends of lines only separate numbers.
-/

namespace Zm.Text
open Zm Misc

/-! ## Polynomials as expressions -/

/-- A piece of an expression: ` + `, ` - `, a number, the variable, `^i`. -/
inductive Piece (K : Type*) where
  | plus
  | minus
  | num (x : K)
  | var
  | pow (i : Nat)

/-- The state of `zPexSExpr`: the string, the rest of `size`, and the variable `coeff`, which is not initialised. -/
structure Expr (K : Type*) where
  out : List (Piece K)
  room : Int
  coeff : Option K

section
variable {K : Type*}

/-- `__strcat_dec`, zm_pex.c:371-376: a piece that does not fit is left out. -/
def cat (width : Piece K → Nat) (p : Piece K) (s : Expr K) : Expr K :=
  if (width p : Int) < s.room then { s with out := s.out ++ [p], room := s.room - width p } else s

variable [Field K] [LinearOrder K]

/-- The sign of a term, zm_pex.c:390-393. -/
def exprSign (width : Piece K → Nat) (a : Nat → K) (dim i : Nat) (s : Expr K) : Expr K :=
  if i < dim ∧ 0 < a i then cat width .plus s else if a i < 0 then cat width .minus s else s

/-- The number of a term, zm_pex.c:395-398: for the constant term the condition `i == 0 || !zEqual( ( coeff = fabs(..) ), 1.0, zTOL )` leaves `coeff` as it is. -/
def exprNum (tol : K) (width : Piece K → Nat) (a : Nat → K) (i : Nat) (s : Expr K) : Res (Expr K) :=
  if i = 0 then
    match s.coeff with
    | none => .ub
    | some c => .ok (cat width (.num c) s)
  else
    let s := { s with coeff := some |a i| }
    .ok (if zEqual (.fin |a i|) (.fin 1) tol then s else cat width (.num |a i|) s)

/-- The power of a term, zm_pex.c:399-406. -/
def exprPow (width : Piece K → Nat) (i : Nat) (s : Expr K) : Expr K :=
  let s := if 0 < i then cat width .var s else s
  if 1 < i then cat width (.pow i) s else s

/-- One turn of the loop of `zPexSExpr`, zm_pex.c:389-408. -/
def exprTerm (tol : K) (width : Piece K → Nat) (a : Nat → K) (dim i : Nat) (s : Expr K) : Res (Expr K) :=
  let s := exprSign width a dim i s
  if a i = 0 then .ok s else (exprNum tol width a i s).bind fun s => .ok (exprPow width i s)

/-- `zPexSExpr`, zm_pex.c:379-411, for a polynomial of degree `dim`; `width` is the number of bytes of a piece. -/
def zPexSExpr (tol : K) (width : Piece K → Nat) (a : Nat → K) (dim : Nat) (size : Int) : Res (Expr K) :=
  forDownM 0 (dim + 1) (exprTerm tol width a dim) ⟨[], size, none⟩

/-! ## Complex numbers -/

/-- A piece of the text of a complex number; `mag` is a number without sign. -/
inductive CTok (K : Type*) where
  | nul
  | plus
  | minus
  | mag (x : K)
  | i

/-- A number with its sign. -/
def numToks (rnd : K → K) (x : K) : List (CTok K) := if x < 0 then [.minus, .mag (rnd |x|)] else [.mag (rnd |x|)]

/-- `_zComplexImFPrint`, zm_complex.c:71-79. -/
def imPrint (rnd : K → K) (im : K) (ps : CTok K) : List (CTok K) :=
  (if 0 < im then ps else .minus) :: (if |im| = 1 then [] else [.mag (rnd |im|)]) ++ [.i]

/-- `zComplexFPrint`, zm_complex.c:82-94. -/
def zComplexFPrint (rnd : K → K) (c : K × K) : List (CTok K) :=
  if c.1 = 0 then (if c.2 = 0 then [.mag (rnd 0)] else imPrint rnd c.2 .nul)
  else numToks rnd c.1 ++ if c.2 = 0 then [] else imPrint rnd c.2 .plus

/-- `atof( zSNumToken( buf, .. ) )`: the number at the beginning of the string is cut off; if there is none, the token is empty and `atof` gives zero. -/
def numToken : List (CTok K) → K × List (CTok K)
  | .mag x :: r => (x, r)
  | .plus :: .mag x :: r => (x, r)
  | .minus :: .mag x :: r => (-x, r)
  | r => (0, r)

/-- A string ends at the first null character. -/
def cstr : List (CTok K) → List (CTok K)
  | [] => []
  | .nul :: _ => []
  | t :: r => t :: cstr r

/-- The imaginary part behind the real part, zm_complex.c:56-61. -/
def fromImag (re : K) (buf : List (CTok K)) : K × K :=
  match buf with
  | .i :: _ => (0, re)
  | .plus :: .i :: _ => (re, 1)
  | .minus :: .i :: _ => (re, -1)
  | buf =>
    match numToken buf with
    | (im, .i :: _) => (re, im)
    | _ => (re, 0)

/-- `zComplexFromStr`, zm_complex.c:43-62. -/
def zComplexFromStr (str : List (CTok K)) : K × K :=
  match cstr str with
  | .i :: _ => (0, 1)
  | .plus :: .i :: _ => (0, 1)
  | .minus :: .i :: _ => (0, -1)
  | buf => fromImag (numToken buf).1 (numToken buf).2

/-! ## Vectors, matrices, polynomials, sequences -/

/-- A number in a file: an integer, a number in the format `%.10g`, or a slash between two of them. -/
inductive Word (K : Type*) where
  | int (n : Int)
  | real (x : K)
  | slash

/-- A number in the format `%.10g`. -/
def real (rnd : K → K) (x : K) : Word K := .real (if x < 0 then -rnd |x| else rnd |x|)

/-- `zFInt` of ZEDA.  A slash is no number: whether it is passed over (`skip`) or not is left open. -/
def zFInt (skip : Bool) : List (Word K) → Option (Int × List (Word K))
  | .int n :: r => some (n, r)
  | .slash :: r => if skip then zFInt skip r else none
  | _ => none

/-- `zFDouble` of ZEDA. -/
def zFDouble (skip : Bool) : List (Word K) → Option (K × List (Word K))
  | .int n :: r => some (n, r)
  | .real x :: r => some (x, r)
  | .slash :: r => if skip then zFDouble skip r else none
  | [] => none

/-- `zRawVecValueFPrint`, zm_raw_vec.c:326-331. -/
def valuePrint (rnd : K → K) (size : Nat) (v : Nat → K) : List (Word K) := (List.range size).map fun i => real rnd (v i)

/-- `zVecFPrint`, zm_vec.c:657-663 with `zRawVecFPrint`, zm_raw_vec.c:334-343. -/
def zVecFPrint (rnd : K → K) (cap size : Nat) (v : Nat → K) : List (Word K) :=
  .int size :: (if cap ≠ size then [.slash, .int cap] else []) ++ valuePrint rnd size v

/-- The loop of `zVecFScan`, zm_vec.c:647-652, and of `zMatFScan` over the elements of a row: `n` elements from `i` on, until one is missing. -/
def scanElems (skip : Bool) : Nat → Nat → (Nat → K) → List (Word K) → (Nat → K) × List (Word K)
  | 0, _, v, w => (v, w)
  | n+1, i, v, w =>
    match zFDouble skip w with
    | none => (v, w)
    | some (x, r) => scanElems skip n (i+1) (set1 v i x) r

/-- `zVecFScan`, zm_vec.c:636-654: size and elements (`none` is NULL) and the rest of the file. -/
def zVecFScan (skip : Bool) (w : List (Word K)) : Option (Nat × (Nat → K)) × List (Word K) :=
  match zFInt skip w with
  | none => (none, w)
  | some (size, r) =>
    if size ≤ 0 then (none, r) else
    let p := scanElems skip size.toNat 0 (fun _ => 0) r
    (some (size.toNat, p.1), p.2)

/-- `zMatFPrint`, zm_mat.c:1062-1068 with `zRawMatFPrint`, zm_raw_mat.c:471-483. -/
def zMatFPrint (rnd : K → K) (rowcap colcap row col : Nat) (m : Nat → Nat → K) : List (Word K) :=
  .int row :: (if rowcap ≠ row then [.slash, .int rowcap] else []) ++ (.int col :: (if colcap ≠ col then [.slash, .int colcap] else [])) ++
    (List.range row).flatMap fun i => valuePrint rnd col (m i)

/-- The loops of `zMatFScan`, zm_mat.c:1052-1057: `break` leaves the loop over the elements of a row only. -/
def scanRows (skip : Bool) (col : Nat) : Nat → Nat → (Nat → Nat → K) → List (Word K) → (Nat → Nat → K) × List (Word K)
  | 0, _, m, w => (m, w)
  | n+1, i, m, w =>
    let p := scanElems skip col 0 (m i) w
    scanRows skip col n (i+1) (fun r c => if r = i then p.1 c else m r c) p.2

/-- `zMatFScan`, zm_mat.c:1037-1059. -/
def zMatFScan (skip : Bool) (w : List (Word K)) : Option (Nat × Nat × (Nat → Nat → K)) × List (Word K) :=
  match zFInt skip w with
  | none => (none, w)
  | some (row, r) =>
    match zFInt skip r with
    | none => (none, r)
    | some (col, r) =>
      if row ≤ 0 ∨ col ≤ 0 then (none, r) else
      let p := scanRows skip col.toNat row.toNat 0 (fun _ _ => 0) r
      (some (row.toNat, col.toNat, p.1), p.2)

/-- `zPexFPrint`, zm_pex.c:360-369. -/
def zPexFPrint (rnd : K → K) (dim : Nat) (a : Nat → K) : List (Word K) := .int dim :: valuePrint rnd (dim + 1) a

/-- `zPexFScan`, zm_pex.c:342-357: where the degree is missing, the function goes on with a variable that is not initialised. -/
def zPexFScan (skip : Bool) (w : List (Word K)) : Res (Option (Nat × (Nat → K)) × List (Word K)) :=
  match zFInt skip w with
  | none => .ub
  | some (dim, r) =>
    if dim + 1 ≤ 0 then .ok (none, r) else
    let p := scanElems skip (dim + 1).toNat 0 (fun _ => 0) r
    .ok (some (dim.toNat, p.1), p.2)

/-- A cell of a sequence: the interval, and the vector with its capacity. -/
structure Cell (K : Type*) where
  dt : K
  cap : Nat
  size : Nat
  v : Nat → K

/-- `zSeqFPrint`, zm_seq.c:135-143, from the oldest cell on. -/
def zSeqFPrint (rnd : K → K) (s : List (Cell K)) : List (Word K) := s.flatMap fun c => real rnd c.dt :: zVecFPrint rnd c.cap c.size c.v

/-- `zSeqFScan`, zm_seq.c:93-116: the cells, the oldest first.  `fuel` bounds the number of cells: every one takes a word at least. -/
def zSeqFScan (skip : Bool) : Nat → List (Word K) → List (K × Nat × (Nat → K))
  | 0, _ => []
  | fuel+1, w =>
    if w.isEmpty then [] else
    match zFDouble skip w with
    | none => []
    | some (dt, r) =>
      match zVecFScan skip r with
      | (none, _) => []
      | (some (n, v), r) => (dt, n, v) :: zSeqFScan skip fuel r

end
end Zm.Text
