import Verif.Model.Complex

/-!
# Complex matrices (zm_cmat.c)

The buffers of all matrices and vectors live in one memory block of complex numbers.  An operation on one element is that of the model of
zm_complex_arith.c, on cells of the block: it writes the two members one after the other.  A matrix is stored without gaps, row by row.  The null
pointer returned for a refused operation is `fail`.
-/

namespace Zm.CMat
open Zm Cplx

noncomputable section

/-- `zCMat`: the place of the buffer and the sizes, zm_cmat.h:20-26. -/
structure CM where
  buf : Nat
  rows : Nat
  cols : Nat

/-- `zCVec`: the place of the buffer and the size. -/
structure CV where
  buf : Nat
  size : Nat

/-- Operation on cells of the block: all of them have to be in the block. -/
def cell (h : Mem ℂ) (ps : List Nat) (f : Heap → Heap) : Res (Mem ℂ) :=
  if ∀ p ∈ ps, p < h.size then .ok ⟨h.size, f h.val⟩ else .ub

/-- `zCMatSizeEqual`, zm_cmat.h:42-44. -/
def sizeEq (a b : CM) : Bool := a.rows == b.rows && a.cols == b.cols

/-- `zCMatZero`, zm_cmat.c:36-44. -/
def zCMatZero (m : CM) (h : Mem ℂ) : Res (Mem ℂ) :=
  forUpM 0 (m.rows * m.cols) (fun i h => h.wr (m.buf + i) 0) h

/-- `zCMatTouchup`, zm_cmat.c:47-55. -/
def zCMatTouchup (m : CM) (tol : ℝ) (h : Mem ℂ) : Res (Mem ℂ) :=
  forUpM 0 m.rows (fun i h => forUpM 0 m.cols (fun j h =>
    (h.rd (m.buf + (i * m.cols + j))).bind fun c => h.wr (m.buf + (i * m.cols + j)) (zComplexTouchup c tol)) h) h

/-- `zCMatCopyNC`, zm_cmat.c:82-90. -/
def zCMatCopyNC (src dest : CM) (h : Mem ℂ) : Res (Mem ℂ) :=
  forUpM 0 (src.rows * src.cols) (fun i h => (h.rd (src.buf + i)).bind fun c => h.wr (dest.buf + i) c) h

/-- `zCMatCopy`, zm_cmat.c:93-100. -/
def zCMatCopy (src dest : CM) (h : Mem ℂ) : Res (Mem ℂ) := if !sizeEq src dest then .fail else zCMatCopyNC src dest h

/-- `zMatToCMat`, zm_cmat.c:114-122: the matrix `a` of `rows` by `cols` real numbers, stored without gaps, has a memory of its own. -/
def zMatToCMat (a : Mem ℝ) (rows cols : Nat) (cm : CM) (h : Mem ℂ) : Res (Mem ℂ) :=
  forUpM 0 (rows * cols) (fun i h => (a.rd i).bind fun x => h.wr (cm.buf + i) ⟨x, 0⟩) h

/-- `memcpy` of the C library on the block: the two areas must not overlap.  The offsets may be negative. -/
def memcpy (dst src : Int) (n : Nat) (h : Mem ℂ) : Res (Mem ℂ) :=
  if 0 ≤ dst ∧ dst + n ≤ h.size ∧ 0 ≤ src ∧ src + n ≤ h.size ∧ (dst + n ≤ src ∨ src + n ≤ dst) then
    .ok ⟨h.size, fun a => if dst ≤ a ∧ (a : Int) < dst + n then h.val ((a : Int) - dst + src).toNat else h.val a⟩
  else .ub

/-- `zCMatGetRow`, zm_cmat.c:142-153, with `zCMatGetRowNC`, 125-129. -/
def zCMatGetRow (m : CM) (row : Int) (v : CV) (h : Mem ℂ) : Res (Mem ℂ) :=
  if m.cols ≠ v.size then .fail
  else if row ≥ m.rows then .fail
  else memcpy v.buf (m.buf + row * m.cols) m.cols h

/-- `zCMatGetCol`, zm_cmat.c:156-167, with `zCMatGetColNC`, 132-139. -/
def zCMatGetCol (m : CM) (col : Int) (v : CV) (h : Mem ℂ) : Res (Mem ℂ) :=
  if m.rows ≠ v.size then .fail
  else if col ≥ m.cols then .fail
  else forUpM 0 m.rows (fun i h => (h.rdI (m.buf + ((i * m.cols : Nat) + col))).bind fun c => h.wr (v.buf + i) c) h

/-- `zCMatPutRow`, zm_cmat.c:187-198, with `zCMatPutRowNC`, 170-174. -/
def zCMatPutRow (m : CM) (row : Int) (v : CV) (h : Mem ℂ) : Res (Mem ℂ) :=
  if m.cols ≠ v.size then .fail
  else if row ≥ m.rows then .fail
  else memcpy (m.buf + row * m.cols) v.buf v.size h

/-- `zCMatPutCol`, zm_cmat.c:201-212, with `zCMatPutColNC`, 177-184. -/
def zCMatPutCol (m : CM) (col : Int) (v : CV) (h : Mem ℂ) : Res (Mem ℂ) :=
  if m.rows ≠ v.size then .fail
  else if col ≥ m.cols then .fail
  else forUpM 0 v.size (fun i h => (h.rd (v.buf + i)).bind fun c => h.wrI (m.buf + ((i * m.cols : Nat) + col)) c) h

/-- `zCMatAdd`, zm_cmat.c:309-316, with `zCMatAddNC`, 226-234. -/
def zCMatAdd (m1 m2 m : CM) (h : Mem ℂ) : Res (Mem ℂ) :=
  if !sizeEq m1 m2 || !sizeEq m1 m then .fail
  else forUpM 0 (m.rows * m.cols) (fun i h =>
    cell h [m1.buf + i, m2.buf + i, m.buf + i] fun v => zComplexAdd v (m1.buf + i) (m2.buf + i) (m.buf + i)) h

/-- `zCMatSub`, zm_cmat.c:319-326, with `zCMatSubNC`, 237-245. -/
def zCMatSub (m1 m2 m : CM) (h : Mem ℂ) : Res (Mem ℂ) :=
  if !sizeEq m1 m2 || !sizeEq m1 m then .fail
  else forUpM 0 (m.rows * m.cols) (fun i h =>
    cell h [m1.buf + i, m2.buf + i, m.buf + i] fun v => zComplexSub v (m1.buf + i) (m2.buf + i) (m.buf + i)) h

/-- `zCMatRev`, zm_cmat.c:329-336, with `zCMatRevNC`, 248-256. -/
def zCMatRev (m1 m : CM) (h : Mem ℂ) : Res (Mem ℂ) :=
  if !sizeEq m1 m then .fail
  else forUpM 0 (m.rows * m.cols) (fun i h => cell h [m1.buf + i, m.buf + i] fun v => zComplexRev v (m1.buf + i) (m.buf + i)) h

/-- `zCMatMulNC`, zm_cmat.c:259-267. -/
def zCMatMulNC (m1 : CM) (k : ℝ) (m : CM) (h : Mem ℂ) : Res (Mem ℂ) :=
  forUpM 0 (m.rows * m.cols) (fun i h => cell h [m1.buf + i, m.buf + i] fun v => zComplexMul v (m1.buf + i) k (m.buf + i)) h

/-- `zCMatMul`, zm_cmat.c:339-346. -/
def zCMatMul (m1 : CM) (k : ℝ) (m : CM) (h : Mem ℂ) : Res (Mem ℂ) := if !sizeEq m1 m then .fail else zCMatMulNC m1 k m h

/-- `zCMatDiv`, zm_cmat.c:349-360, with `zCMatDivNC`, 270-279; `tol` is `zTOL`. -/
def zCMatDiv (tol : ℝ) (m1 : CM) (k : ℝ) (m : CM) (h : Mem ℂ) : Res (Mem ℂ) :=
  if !sizeEq m1 m then .fail
  else if |k| ≤ tol then .fail
  else zCMatMulNC m1 (1 / k) m h

/-- `zCMatCMulNC`, zm_cmat.c:282-290; the scalar is in the cell `z` of the block. -/
def zCMatCMulNC (m1 : CM) (z : Nat) (m : CM) (h : Mem ℂ) : Res (Mem ℂ) :=
  forUpM 0 (m.rows * m.cols) (fun i h => cell h [m1.buf + i, z, m.buf + i] fun v => zComplexCMul v (m1.buf + i) z (m.buf + i)) h

/-- `zCMatCMul`, zm_cmat.c:363-370. -/
def zCMatCMul (m1 : CM) (z : Nat) (m : CM) (h : Mem ℂ) : Res (Mem ℂ) := if !sizeEq m1 m then .fail else zCMatCMulNC m1 z m h

/-- The scalar of `zCMatCDivNC`, zm_cmat.c:293-306: when `zComplexDiv` fails the conjugate is left as it is. -/
def recip (tol : ℝ) (z : ℂ) : ℂ :=
  let r := zComplexSqrAbs z
  if |r| ≤ tol then ⟨z.re, -z.im⟩ else ⟨z.re * (1 / r), -z.im * (1 / r)⟩

/-- `zCMatCDiv`, zm_cmat.c:373-384, with `zCMatCDivNC`, 293-306; the scalar is in the cell `z`, and its reciprocal in a local variable. -/
def zCMatCDiv (tol : ℝ) (m1 : CM) (z : Nat) (m : CM) (h : Mem ℂ) : Res (Mem ℂ) :=
  if !sizeEq m1 m then .fail
  else (h.rd z).bind fun c =>
    if |c.re| ≤ tol ∧ |c.im| ≤ tol then .fail
    else forUpM 0 (m.rows * m.cols) (fun i h => cell h [m1.buf + i, m.buf + i] fun v =>
      create v (m.buf + i) (fun v => (v (m1.buf + i)).re * (recip tol c).re - (v (m1.buf + i)).im * (recip tol c).im)
        (fun v => (v (m1.buf + i)).re * (recip tol c).im + (v (m1.buf + i)).im * (recip tol c).re)) h

/-- `zCMulMatVec`, zm_cmat.c:404-411, with `zCMulMatVecNC`, 387-401. -/
def zCMulMatVec (m : CM) (v1 v : CV) (h : Mem ℂ) : Res (Mem ℂ) :=
  if m.cols ≠ v1.size ∨ m.rows ≠ v.size then .fail
  else forUpM 0 m.rows (fun i h =>
    (h.wr (v.buf + i) 0).bind fun h =>
    forUpM 0 m.cols (fun j h =>
      (h.rd (m.buf + i * m.cols + j)).bind fun a =>
      (h.rd (v1.buf + j)).bind fun b =>
      (h.rd (v.buf + i)).bind fun s =>
      let z : ℂ := ⟨a.re * b.re - a.im * b.im, a.re * b.im + a.im * b.re⟩
      h.wr (v.buf + i) ⟨s.re + z.re, s.im + z.im⟩) h) h

end

end Zm.CMat
