import Verif.Model.Phase
import Verif.Model.MatMore
import Verif.Model.Complex

/-!
# Model of the picture of a matrix (zm_mat.c) and of the search in arrays of complex numbers (zm_complex.c)
-/

namespace Zm.Img
open Zm Misc
noncomputable section

/-- The patterns, zm_mat.c:1074-1075, with the terminating zero. -/
def patPos : List Char := [',', 'x', '*', 'M', '\x00']
def patNeg : List Char := ['.', 'o', 'O', '@', '\x00']

/-- `_zLimit` of ZEDA. -/
def limit (c lo hi : Int) : Int := if c < lo then lo else if c > hi then hi else c

/-- An element of a pattern; outside of it the behaviour is undefined. -/
def patAt (p : List Char) (k : Int) : Res Char :=
  match (if k < 0 then none else p[k.toNat]?) with
  | some c => .ok c
  | none => .ub

/-- What is printed for an element, zm_mat.c:1082-1088; a zero divisor gives no `int`. -/
def imgElem (tol d x : ℝ) : Res (List Char) :=
  if zIsTol x tol then .ok [' ', ' ']
  else if d = 0 then .ub
  else (Phase.zRound (x / d)).bind fun r => (Phase.toInt r).bind fun c =>
    (if limit c (-3) 3 < 0 then patAt patNeg (-(limit c (-3) 3)) else patAt patPos (limit c (-3) 3)).bind fun ch => .ok [ch, ' ']

/-- The loops, zm_mat.c:1080-1091. -/
def imgRows (tol d : ℝ) (rows cols : Nat) (m : Nat → Nat → ℝ) : Res (List Char) :=
  forUpM 0 rows (fun i out => (forUpM 0 cols (fun j out => (imgElem tol d (m i j)).bind fun c => .ok (out ++ c)) out).bind fun out => .ok (out ++ ['\n'])) []

/-- `zMatImg`, zm_mat.c:1071-1093: what is printed.  Without rows the greatest absolute value is not a number, and nothing is printed. -/
def zMatImg (tol : ℝ) (rows cols : Nat) (m : Nat → Nat → ℝ) : Res (List Char) :=
  match Mat.zMatElemAbsMax rows cols m with
  | .ok (some b) => imgRows tol (1 / 4 * b.val) rows cols m
  | .ok none => if rows = 0 then .ok [] else .ub
  | .fail => .fail
  | .ub => .ub

/-- `zComplexValIsIncluded`, zm_complex.c:104-111, from the index `i` on. -/
def zComplexValIsIncluded (array : Nat → ℂ) (c : ℂ) (tol : ℝ) : Nat → Nat → Bool
  | 0, _ => false
  | n + 1, i => if Cplx.zComplexEqual (array i) c tol then true else zComplexValIsIncluded array c tol n (i + 1)

/-- `zComplexValConjIsIncluded`, zm_complex.c:114-121. -/
def zComplexValConjIsIncluded (array : Nat → ℂ) (c : ℂ) (tol : ℝ) : Nat → Nat → Bool
  | 0, _ => false
  | n + 1, i => if Cplx.zComplexCoconj (array i) c tol then true else zComplexValConjIsIncluded array c tol n (i + 1)

end
end Zm.Img
