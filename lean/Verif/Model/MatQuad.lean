import Verif.Model.MatMore
import Verif.Model.LEGen

/-!
# Products of three matrices with their checks (zm_mat.c:880-1019)

The memory model is that of `Model/RawMat.lean`.  The same loops on matrices as functions are in `Model/LEGen.lean`.
-/

namespace Zm.Mat
open Zm RawVec RawMat Vec
variable {K : Type*}

/-- Address of an element: `zMatElemNC`, zm_mat.h. -/
def MatRef.at (m : MatRef) (i j : Nat) : Nat := m.buf + i * m.colcap + j

/-- `zMatElemNC(m,i,j) += x`. -/
def addElem [Add K] (m : MatRef) (i j : Nat) (x : K) (h : Mem K) : Res (Mem K) := (h.rd (m.at i j)).bind fun y => h.wr (m.at i j) (y + x)

/-- The weighted factor, zm_mat.c:888 and 925: `zVecElem(w,k) * x`, or `x` for a null pointer. -/
def weighted [Mul K] (w : Option VecRef) (k : Nat) (x : K) (h : Mem K) : Res K :=
  match w with
  | some w => (h.rd (w.buf + k)).bind fun y => .ok (y * x)
  | none => .ok x

/-- The copy of the upper half to the lower half, zm_mat.c:892-894 and 929-931. -/
def quadCopyMem (n : Nat) (q : MatRef) (h : Mem K) : Res (Mem K) :=
  forUpM 0 n (fun i h => forUpM i n (fun j h => (h.rd (q.at i j)).bind fun y => h.wr (q.at j i) y) h) h

/-- The accumulation of `zMatQuadNC` and `zMatTQuadNC`, zm_mat.c:886-891 and 923-928; `el i k` is the address of the element. -/
def quadAccMem [Add K] [Mul K] (n l : Nat) (el : Nat → Nat → Nat) (w : Option VecRef) (q : MatRef) (h : Mem K) : Res (Mem K) :=
  forUpM 0 l (fun k h => forUpM 0 n (fun i h =>
    (h.rd (el i k)).bind fun x => (weighted w k x h).bind fun wa =>
    forUpM i n (fun j h => (h.rd (el j k)).bind fun z => addElem q i j (wa * z) h) h) h) h

/-- `zMatQuad`, zm_mat.c:880-914. -/
def zMatQuad [Ring K] (a : MatRef) (w : Option VecRef) (q : MatRef) (h : Mem K) : Res (Mem K × Bool) :=
  if (∃ v ∈ w, a.cols ≠ v.size) then .ok (h, false) else
  if a.rows ≠ q.rows then .ok (h, false) else
  if q.rows ≠ q.cols then .ok (h, false) else
  (zRawMatZero q.buf q.colcap q.rows q.cols h).bind fun h => (quadAccMem a.rows a.cols (fun i k => a.at i k) w q h).bind fun h =>
  (quadCopyMem a.rows q h).bind fun h => .ok (h, true)

/-- `zMatTQuad`, zm_mat.c:917-951. -/
def zMatTQuad [Ring K] (a : MatRef) (w : Option VecRef) (q : MatRef) (h : Mem K) : Res (Mem K × Bool) :=
  if (∃ v ∈ w, a.rows ≠ v.size) then .ok (h, false) else
  if a.cols ≠ q.rows then .ok (h, false) else
  if q.rows ≠ q.cols then .ok (h, false) else
  (zRawMatZero q.buf q.colcap q.rows q.cols h).bind fun h => (quadAccMem a.cols a.rows (fun i k => a.at k i) w q h).bind fun h =>
  (quadCopyMem a.cols q h).bind fun h => .ok (h, true)

/-- The loops of `zMulMatMatMatTNC` and `zMulMatTMatMatNC`, zm_mat.c:959-967 and 991-999; `el i k` is the address of the element of `a` or its transpose. -/
def tripleMem [Ring K] (r n c : Nat) (el : Nat → Nat → Nat) (q m : MatRef) (h : Mem K) : Res (Mem K) :=
  forUpM 0 n (fun i h => forUpM 0 r (fun j h =>
    (forUpM 0 c (fun k y => (h.rd (q.at i k)).bind fun x => (h.rd (el j k)).bind fun z => .ok (y + x * z)) 0).bind fun y =>
    forUpM 0 r (fun k h => (h.rd (el k i)).bind fun x => addElem m k j (x * y) h) h) h) h

/-- `zMulMatMatMatT`, zm_mat.c:954-983: the size of `m` is not compared with that of `a`. -/
def zMulMatMatMatT [Ring K] (a q m : MatRef) (h : Mem K) : Res (Mem K × Bool) :=
  if q.rows ≠ q.cols ∨ m.rows ≠ m.cols then .ok (h, false) else
  if a.cols ≠ q.rows then .ok (h, false) else
  (zRawMatZero m.buf m.colcap m.rows m.cols h).bind fun h => (tripleMem a.rows q.rows q.cols (fun i k => a.at i k) q m h).bind fun h => .ok (h, true)

/-- `zMulMatTMatMat`, zm_mat.c:986-1015: the size of `m` is not compared with that of `a`. -/
def zMulMatTMatMat [Ring K] (a q m : MatRef) (h : Mem K) : Res (Mem K × Bool) :=
  if q.rows ≠ q.cols ∨ m.rows ≠ m.cols then .ok (h, false) else
  if a.rows ≠ q.rows then .ok (h, false) else
  (zRawMatZero m.buf m.colcap m.rows m.cols h).bind fun h => (tripleMem a.cols q.rows q.cols (fun i k => a.at k i) q m h).bind fun h => .ok (h, true)

end Zm.Mat
