import Verif.Model.CMat

/-!
# Complex vectors (zm_cvec.c)

The buffers of all complex vectors, and complex scalars passed by address, live in one memory block of complex numbers, as for complex matrices.
Real vectors live in a block of their own.  The null pointer returned for a refused operation is `fail`; a null vector is not modelled.
-/

namespace Zm.CVec
open Zm Cplx CMat

noncomputable section

/-- `zCVecZero`, zm_cvec.c:35-42. -/
def zCVecZero (v : CV) (h : Mem ℂ) : Res (Mem ℂ) := forUpM 0 v.size (fun i h => h.wr (v.buf + i) ⟨0, 0⟩) h

/-- `zCVecTouchup`, zm_cvec.c:45-52. -/
def zCVecTouchup (v : CV) (tol : ℝ) (h : Mem ℂ) : Res (Mem ℂ) :=
  forUpM 0 v.size (fun i h => (h.rd (v.buf + i)).bind fun c => h.wr (v.buf + i) (zComplexTouchup c tol)) h

/-- `zCVecCopyNC`, zm_cvec.c:55-62: the loop runs over the destination. -/
def zCVecCopyNC (src dest : CV) (h : Mem ℂ) : Res (Mem ℂ) :=
  forUpM 0 dest.size (fun i h => (h.rd (src.buf + i)).bind fun c => h.wr (dest.buf + i) c) h

/-- `zCVecCopy`, zm_cvec.c:65-68. -/
def zCVecCopy (src dest : CV) (h : Mem ℂ) : Res (Mem ℂ) := if src.size = dest.size then zCVecCopyNC src dest h else .fail

/-- `zVecToCVec`, zm_cvec.c:82-93; the real vector of `n` elements is the beginning of the block `r`. -/
def zVecToCVec (r : Mem ℝ) (n : Nat) (cv : CV) (h : Mem ℂ) : Res (Mem ℂ) :=
  if n ≠ cv.size then .fail
  else forUpM 0 cv.size (fun i h => (r.rd i).bind fun x => h.wr (cv.buf + i) ⟨x, 0⟩) h

/-- `zCVecToReVec`, zm_cvec.c:96-107. -/
def zCVecToReVec (cv : CV) (h : Mem ℂ) (n : Nat) (r : Mem ℝ) : Res (Mem ℝ) :=
  if n ≠ cv.size then .fail
  else forUpM 0 cv.size (fun i r => (h.rd (cv.buf + i)).bind fun c => r.wr i c.re) r

/-- `zCVecToImVec`, zm_cvec.c:110-121. -/
def zCVecToImVec (cv : CV) (h : Mem ℂ) (n : Nat) (r : Mem ℝ) : Res (Mem ℝ) :=
  if n ≠ cv.size then .fail
  else forUpM 0 cv.size (fun i r => (h.rd (cv.buf + i)).bind fun c => r.wr i c.im) r

/-- The loop of `zCVecEqual`, zm_cvec.c:139-140, from the element `i` on, with `k` elements left. -/
def equalLoop (p q : Nat) (tol : ℝ) (h : Mem ℂ) : Nat → Nat → Res Bool
  | 0, _ => .ok true
  | k+1, i => (h.rd (p + i)).bind fun a => (h.rd (q + i)).bind fun b =>
    if !zComplexEqual a b tol then .ok false else equalLoop p q tol h k (i+1)

/-- `zCVecEqual`, zm_cvec.c:134-142. -/
def zCVecEqual (v1 v2 : CV) (tol : ℝ) (h : Mem ℂ) : Res Bool :=
  if v1.size ≠ v2.size then .ok false else equalLoop v1.buf v2.buf tol h v1.size 0

/-- The loop of `zCVecIsTol`, zm_cvec.c:149-150. -/
def tolLoop (p : Nat) (tol : ℝ) (h : Mem ℂ) : Nat → Nat → Res Bool
  | 0, _ => .ok true
  | k+1, i => (h.rd (p + i)).bind fun a => if |a.re| ≤ tol ∧ |a.im| ≤ tol then tolLoop p tol h k (i+1) else .ok false

/-- `zCVecIsTol`, zm_cvec.c:145-152. -/
def zCVecIsTol (v : CV) (tol : ℝ) (h : Mem ℂ) : Res Bool := tolLoop v.buf tol h v.size 0

/-- `zCVecAdd`, zm_cvec.c:322-326, with `zCVecAddNC`, 221-228. -/
def zCVecAdd (v1 v2 v : CV) (h : Mem ℂ) : Res (Mem ℂ) :=
  if v1.size ≠ v2.size ∨ v1.size ≠ v.size then .fail
  else forUpM 0 v.size (fun i h => cell h [v1.buf + i, v2.buf + i, v.buf + i] fun m => zComplexAdd m (v1.buf + i) (v2.buf + i) (v.buf + i)) h

/-- `zCVecSub`, zm_cvec.c:329-333, with `zCVecSubNC`, 231-238. -/
def zCVecSub (v1 v2 v : CV) (h : Mem ℂ) : Res (Mem ℂ) :=
  if v1.size ≠ v2.size ∨ v1.size ≠ v.size then .fail
  else forUpM 0 v.size (fun i h => cell h [v1.buf + i, v2.buf + i, v.buf + i] fun m => zComplexSub m (v1.buf + i) (v2.buf + i) (v.buf + i)) h

/-- `zCVecRev`, zm_cvec.c:336-340, with `zCVecRevNC`, 241-248. -/
def zCVecRev (v1 v : CV) (h : Mem ℂ) : Res (Mem ℂ) :=
  if v1.size ≠ v.size then .fail
  else forUpM 0 v.size (fun i h => cell h [v1.buf + i, v.buf + i] fun m => zComplexRev m (v1.buf + i) (v.buf + i)) h

/-- `zCVecMulNC`, zm_cvec.c:251-258. -/
def zCVecMulNC (v1 : CV) (k : ℝ) (v : CV) (h : Mem ℂ) : Res (Mem ℂ) :=
  forUpM 0 v.size (fun i h => cell h [v1.buf + i, v.buf + i] fun m => zComplexMul m (v1.buf + i) k (v.buf + i)) h

/-- `zCVecMul`, zm_cvec.c:343-347. -/
def zCVecMul (v1 : CV) (k : ℝ) (v : CV) (h : Mem ℂ) : Res (Mem ℂ) := if v1.size ≠ v.size then .fail else zCVecMulNC v1 k v h

/-- `zCVecDiv`, zm_cvec.c:350-358, with `zCVecDivNC`, 261-269; `tol` is `zTOL`. -/
def zCVecDiv (tol : ℝ) (v1 : CV) (k : ℝ) (v : CV) (h : Mem ℂ) : Res (Mem ℂ) :=
  if v1.size ≠ v.size then .fail
  else if |k| ≤ tol then .fail
  else zCVecMulNC v1 (1 / k) v h

/-- `zCVecCMulNC`, zm_cvec.c:272-279; the scalar is in the cell `z`. -/
def zCVecCMulNC (v1 : CV) (z : Nat) (v : CV) (h : Mem ℂ) : Res (Mem ℂ) :=
  forUpM 0 v.size (fun i h => cell h [v1.buf + i, z, v.buf + i] fun m => zComplexCMul m (v1.buf + i) z (v.buf + i)) h

/-- `zCVecCMul`, zm_cvec.c:361-365. -/
def zCVecCMul (v1 : CV) (z : Nat) (v : CV) (h : Mem ℂ) : Res (Mem ℂ) := if v1.size ≠ v.size then .fail else zCVecCMulNC v1 z v h

/-- `zCVecCDivNC`, zm_cvec.c:282-294; the scalar is in the cell `z`, its reciprocal in a local variable. -/
def zCVecCDivNC (tol : ℝ) (v1 : CV) (z : Nat) (v : CV) (h : Mem ℂ) : Res (Mem ℂ) :=
  (h.rd z).bind fun c =>
    forUpM 0 v.size (fun i h => cell h [v1.buf + i, v.buf + i] fun m =>
      create m (v.buf + i) (fun m => (m (v1.buf + i)).re * (recip tol c).re - (m (v1.buf + i)).im * (recip tol c).im)
        (fun m => (m (v1.buf + i)).re * (recip tol c).im + (m (v1.buf + i)).im * (recip tol c).re)) h

/-- `zCVecCDiv`, zm_cvec.c:368-376. -/
def zCVecCDiv (tol : ℝ) (v1 : CV) (z : Nat) (v : CV) (h : Mem ℂ) : Res (Mem ℂ) :=
  if v1.size ≠ v.size then .fail
  else (h.rd z).bind fun c => if |c.re| ≤ tol ∧ |c.im| ≤ tol then .fail else zCVecCDivNC tol v1 z v h

/-- `zCVecCat`, zm_cvec.c:379-383, with `zCVecCatNC`, 298-308: `v1 + z v2`; the scalar is in the cell `z`, the product in a local variable. -/
def zCVecCat (v1 : CV) (z : Nat) (v2 v : CV) (h : Mem ℂ) : Res (Mem ℂ) :=
  if v1.size ≠ v2.size ∨ v1.size ≠ v.size then .fail
  else forUpM 0 v.size (fun i h =>
    (h.rd (v2.buf + i)).bind fun b => (h.rd z).bind fun c =>
    let dz : ℂ := ⟨b.re * c.re - b.im * c.im, b.re * c.im + b.im * c.re⟩
    cell h [v1.buf + i, v.buf + i] fun m =>
      create m (v.buf + i) (fun m => (m (v1.buf + i)).re + dz.re) (fun m => (m (v1.buf + i)).im + dz.im)) h

/-- `zCVecInnerProd`, zm_cvec.c:400-407, with `zCVecInnerProdNC`, 386-397; the result is in a variable that is in none of the vectors. -/
def zCVecInnerProd (v1 v2 : CV) (h : Mem ℂ) : Res ℂ :=
  if v1.size ≠ v2.size then .fail
  else forUpM 0 v1.size (fun i z =>
    (h.rd (v1.buf + i)).bind fun a => (h.rd (v2.buf + i)).bind fun b =>
    let c : ℂ := ⟨a.re * b.re + a.im * b.im, -a.re * b.im + a.im * b.re⟩
    .ok ⟨z.re + c.re, z.im + c.im⟩) ⟨0, 0⟩

/-- `zCVecNorm`, zm_cvec.h:228, with `zCVecSqrNorm`, zm_cvec.c:410-415. -/
def zCVecNorm (v : CV) (h : Mem ℂ) : Res ℝ := (zCVecInnerProd v v h).bind fun z => .ok (Real.sqrt (zComplexAbs z))

/-- `zCVecNormalize`, zm_cvec.c:418-430: the sizes are not compared; the outcome of `zComplexDiv` is not looked at, but the divisor has been
checked. -/
def zCVecNormalize (tol : ℝ) (src dest : CV) (h : Mem ℂ) : Res (Mem ℂ) :=
  (zCVecNorm src h).bind fun r =>
    if |r| ≤ tol then .fail
    else forUpM 0 dest.size (fun i h => cell h [src.buf + i, dest.buf + i] fun m => zComplexMul m (src.buf + i) (1 / r) (dest.buf + i)) h

end

end Zm.CVec
