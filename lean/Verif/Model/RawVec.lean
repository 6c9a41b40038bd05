import Verif.Model.Misc
import Mathlib.Algebra.Order.Field.Basic

/-!
# Model of `src/zm_raw_vec.c` (vector kernels on raw `double*`)

All operands live in one memory block `m : Mem K`; a `double *` is an offset into it, so operands may alias or
overlap.  An access outside the block is undefined behaviour.  `size` is an `int`: a non-positive value means that
the loop does not run, except where the size is handed to `memcpy`.
-/

namespace Zm.RawVec
open Zm

variable {K : Type*}

/-- Loop shape `while( size-- > 0 ) *v++ = op( *v1++ );` -/
def map1 (op : K → K) (v1 v : Nat) (size : Int) (m : Mem K) : Res (Mem K) :=
  forUpM 0 size.toNat (fun i m => do m.wr (v+i) (op (← m.rd (v1+i)))) m

/-- Loop shape `while( size-- > 0 ) *v++ = op( *v1++, *v2++ );` -/
def map2 (op : K → K → K) (v1 v2 v : Nat) (size : Int) (m : Mem K) : Res (Mem K) :=
  forUpM 0 size.toNat (fun i m => do m.wr (v+i) (op (← m.rd (v1+i)) (← m.rd (v2+i)))) m

/-- Loop shape with three sources. -/
def map3 (op : K → K → K → K) (v1 v2 v3 v : Nat) (size : Int) (m : Mem K) : Res (Mem K) :=
  forUpM 0 size.toNat (fun i m => do
    m.wr (v+i) (op (← m.rd (v1+i)) (← m.rd (v2+i)) (← m.rd (v3+i)))) m

/-- `zRawVecCopy` (memcpy), zm_raw_vec.h:35; overlapping operands are undefined, and so is a negative size, which
becomes a huge number of bytes. -/
def zRawVecCopy (src dest : Nat) (size : Int) (m : Mem K) : Res (Mem K) :=
  if size < 0 then .ub
  else if 0 < size ∧ ¬ (src + size.toNat ≤ dest ∨ dest + size.toNat ≤ src) then .ub
  else map1 id src dest size m

/-- `zRawVecSetAll`, zm_raw_vec.c:17-20. -/
def zRawVecSetAll (v : Nat) (size : Int) (val : K) (m : Mem K) : Res (Mem K) :=
  forUpM 0 size.toNat (fun i m => m.wr (v+i) val) m

/-- `zRawVecLinSpace`, zm_raw_vec.c:23-32 (division by zero is a separate matter: `n = 0` gives `0/0`). -/
def zRawVecLinSpace [Field K] (v : Nat) (size : Int) (from_ to_ : K) (m : Mem K) : Res (Mem K) :=
  let range := to_ - from_
  let n : Int := size - 1
  forUpM 0 size.toNat (fun i m => m.wr (v+i) (range * (i : K) / (n : K) + from_)) m

/-- `zRawVecShift`, zm_raw_vec.c:47-50. -/
def zRawVecShift [Add K] (src : Nat) (size : Int) (shift : K) (dest : Nat) (m : Mem K) : Res (Mem K) :=
  map1 (· + shift) src dest size m

/-- `zRawVecSwap`, zm_raw_vec.c:53-57 (`zSwap` = three assignments through a temporary). -/
def zRawVecSwap (v : Nat) (i1 i2 : Int) (m : Mem K) : Res (Mem K) := do
  let tmp ← m.rdI (v + i1)
  let m ← m.wrI (v + i1) (← m.rdI (v + i2))
  m.wrI (v + i2) tmp

/-- `zRawVecAdd`, zm_raw_vec.c:92-95. -/
def zRawVecAdd [Add K] (v1 v2 v : Nat) (size : Int) (m : Mem K) : Res (Mem K) := map2 (· + ·) v1 v2 v size m
/-- `zRawVecSub`, zm_raw_vec.c:98-101. -/
def zRawVecSub [Sub K] (v1 v2 v : Nat) (size : Int) (m : Mem K) : Res (Mem K) := map2 (· - ·) v1 v2 v size m
/-- `zRawVecRev`, zm_raw_vec.c:104-107. -/
def zRawVecRev [Neg K] (v1 v : Nat) (size : Int) (m : Mem K) : Res (Mem K) := map1 (fun a => -a) v1 v size m
/-- `zRawVecMul`, zm_raw_vec.c:110-113. -/
def zRawVecMul [Mul K] (v1 : Nat) (k : K) (v : Nat) (size : Int) (m : Mem K) : Res (Mem K) := map1 (· * k) v1 v size m
/-- `zRawVecDiv`, zm_raw_vec.c:116-119 (multiplication by `1.0/k`). -/
def zRawVecDiv [Field K] (v1 : Nat) (k : K) (v : Nat) (size : Int) (m : Mem K) : Res (Mem K) :=
  zRawVecMul v1 (1 / k) v size m
/-- `zRawVecAmp`, zm_raw_vec.c:122-125. -/
def zRawVecAmp [Mul K] (v1 amp v : Nat) (size : Int) (m : Mem K) : Res (Mem K) := map2 (· * ·) v1 amp v size m
/-- `zRawVecDem`, zm_raw_vec.c:128-131. -/
def zRawVecDem [Div K] (v1 dem v : Nat) (size : Int) (m : Mem K) : Res (Mem K) := map2 (· / ·) v1 dem v size m
/-- `zRawVecCat`, zm_raw_vec.c:134-137. -/
def zRawVecCat [Add K] [Mul K] (v1 : Nat) (k : K) (v2 v : Nat) (size : Int) (m : Mem K) : Res (Mem K) :=
  map2 (fun a b => a + b * k) v1 v2 v size m
/-- `zRawVecAddDRC`, zm_raw_vec.c:140-143. -/
def zRawVecAddDRC [Add K] (v1 v2 : Nat) (size : Int) (m : Mem K) : Res (Mem K) := map2 (· + ·) v1 v2 v1 size m
/-- `zRawVecSubDRC`, zm_raw_vec.c:146-149. -/
def zRawVecSubDRC [Sub K] (v1 v2 : Nat) (size : Int) (m : Mem K) : Res (Mem K) := map2 (· - ·) v1 v2 v1 size m
/-- `zRawVecRevDRC`, zm_raw_vec.c:152-155. -/
def zRawVecRevDRC [Neg K] (v : Nat) (size : Int) (m : Mem K) : Res (Mem K) := map1 (fun a => -a) v v size m
/-- `zRawVecMulDRC`, zm_raw_vec.c:158-161. -/
def zRawVecMulDRC [Mul K] (v : Nat) (k : K) (size : Int) (m : Mem K) : Res (Mem K) := map1 (· * k) v v size m
/-- `zRawVecDivDRC`, zm_raw_vec.c:164-167. -/
def zRawVecDivDRC [Field K] (v : Nat) (k : K) (size : Int) (m : Mem K) : Res (Mem K) := zRawVecMulDRC v (1 / k) size m
/-- `zRawVecAmpDRC`, zm_raw_vec.c:170-173. -/
def zRawVecAmpDRC [Mul K] (v amp : Nat) (size : Int) (m : Mem K) : Res (Mem K) := map2 (· * ·) v amp v size m
/-- `zRawVecDemDRC`, zm_raw_vec.c:176-179. -/
def zRawVecDemDRC [Div K] (v dem : Nat) (size : Int) (m : Mem K) : Res (Mem K) := map2 (· / ·) v dem v size m
/-- `zRawVecCatDRC`, zm_raw_vec.c:182-185. -/
def zRawVecCatDRC [Add K] [Mul K] (v1 : Nat) (k : K) (v2 : Nat) (size : Int) (m : Mem K) : Res (Mem K) :=
  map2 (fun a b => a + b * k) v1 v2 v1 size m
/-- `zRawVecInterDiv`, zm_raw_vec.c:223-230 (note `*v` is written before `v1`, `v2` advance; each is read before). -/
def zRawVecInterDiv [Ring K] (v1 v2 : Nat) (ratio : K) (v : Nat) (size : Int) (m : Mem K) : Res (Mem K) :=
  map2 (fun a b => a + ratio * (b - a)) v1 v2 v size m
/-- `zRawVecInterDivDRC`, zm_raw_vec.c:233-240. -/
def zRawVecInterDivDRC [Ring K] (v v2 : Nat) (ratio : K) (size : Int) (m : Mem K) : Res (Mem K) :=
  map2 (fun a b => a + ratio * (b - a)) v v2 v size m
/-- `zRawVecMid`, zm_raw_vec.c:243-247. -/
def zRawVecMid [Field K] (v1 v2 v : Nat) (size : Int) (m : Mem K) : Res (Mem K) :=
  map2 (fun a b => (1/2) * (a + b)) v1 v2 v size m
/-- `zRawVecScale`, zm_raw_vec.c:250-257. -/
def zRawVecScale [Ring K] (src min max dest : Nat) (size : Int) (m : Mem K) : Res (Mem K) :=
  map3 (fun s lo hi => lo + s * (hi - lo)) src min max dest size m
/-- `zRawVecScaleUniform`, zm_raw_vec.c:260-264. -/
def zRawVecScaleUniform [Ring K] (src : Nat) (min max : K) (dest : Nat) (size : Int) (m : Mem K) : Res (Mem K) :=
  map1 (fun s => min + s * (max - min)) src dest size m
/-- `zRawVecTouchup`, zm_raw_vec.c:10-14. -/
def zRawVecTouchup [Field K] [LinearOrder K] (v : Nat) (size : Int) (tol : K) (m : Mem K) : Res (Mem K) :=
  map1 (fun a => if Misc.zIsTol a tol then 0 else a) v v size m

/-- State of the compensated summation of zm_raw_vec.c:269-276. -/
structure Acc (K : Type*) where
  s : K
  s_prev : K
  q : K

/-- One step of the loop body zm_raw_vec.c:272-275 for the term `v`. -/
def Acc.step [Ring K] (a : Acc K) (v : K) : Acc K :=
  let s := a.s_prev + v
  let r := s - a.s_prev
  ⟨s, s, a.q + (v - r)⟩

/-- `zRawVecInnerProd`, zm_raw_vec.c:267-278. -/
def zRawVecInnerProd [Ring K] (v1 v2 : Nat) (size : Int) (m : Mem K) : Res K := do
  let a ← forUpM 0 size.toNat (fun i (a : Acc K) => do
    return a.step ((← m.rd (v1+i)) * (← m.rd (v2+i)))) ⟨0, 0, 0⟩
  return a.s + a.q

/-- `zRawVecSqrNorm`, zm_raw_vec.c:281-284. -/
def zRawVecSqrNorm [Ring K] (v : Nat) (size : Int) (m : Mem K) : Res K := zRawVecInnerProd v v size m

/-- `zRawVecWSqrNorm`, zm_raw_vec.c:287-298. -/
def zRawVecWSqrNorm [Ring K] (v w : Nat) (size : Int) (m : Mem K) : Res K := do
  let a ← forUpM 0 size.toNat (fun i (a : Acc K) => do
    return a.step ((← m.rd (w+i)) * (← m.rd (v+i)) * (← m.rd (v+i)))) ⟨0, 0, 0⟩
  return a.s + a.q

/-- `zRawVecSqrDist`, zm_raw_vec.c:315-323. -/
def zRawVecSqrDist [Ring K] (v1 v2 : Nat) (size : Int) (m : Mem K) : Res K :=
  forUpM 0 size.toNat (fun i d => do
    let e := (← m.rd (v1+i)) - (← m.rd (v2+i))
    return d + e * e) 0

end Zm.RawVec

namespace Zm.Vec
open Zm RawVec
variable {K : Type*}

/-- A vector object (`zVec`): offset of its buffer in memory and its size (include/zm/zm_vec.h:66-93). -/
structure VecRef where
  buf : Nat
  size : Nat

/-- `zVecSizeEqual`, zm_vec.h:87. -/
def zVecSizeEqual (v1 v2 : VecRef) : Bool := v1.size == v2.size

/-! The checked functions report success through the second component (pointer / `NULL`), so that the memory
after a failed call is visible. -/

/-- `__z_vec_size_check_3`, zm_vec.c:383-387, in front of an unchecked call. -/
def check3 (v1 v2 v : VecRef) (m : Mem K) (nc : Res (Mem K)) : Res (Mem K × Bool) :=
  if !zVecSizeEqual v1 v2 || !zVecSizeEqual v1 v then .ok (m, false) else do return (← nc, true)

/-- `__z_vec_size_check_2`, zm_vec.c:377-381. -/
def check2 (v1 v : VecRef) (m : Mem K) (nc : Res (Mem K)) : Res (Mem K × Bool) :=
  if !zVecSizeEqual v1 v then .ok (m, false) else do return (← nc, true)

/-- `zVecAdd`, zm_vec.c:390-394 and 320-324. -/
def zVecAdd [Add K] (v1 v2 v : VecRef) (m : Mem K) : Res (Mem K × Bool) :=
  check3 v1 v2 v m (zRawVecAdd v1.buf v2.buf v.buf v.size m)
/-- `zVecSub`, zm_vec.c:397-401 and 327-331. -/
def zVecSub [Sub K] (v1 v2 v : VecRef) (m : Mem K) : Res (Mem K × Bool) :=
  check3 v1 v2 v m (zRawVecSub v1.buf v2.buf v.buf v.size m)
/-- `zVecRev`, zm_vec.c:404-408 and 334-338. -/
def zVecRev [Neg K] (v1 v : VecRef) (m : Mem K) : Res (Mem K × Bool) := check2 v1 v m (zRawVecRev v1.buf v.buf v.size m)
/-- `zVecMul`, zm_vec.c:411-415 and 341-345. -/
def zVecMul [Mul K] (v1 : VecRef) (k : K) (v : VecRef) (m : Mem K) : Res (Mem K × Bool) :=
  check2 v1 v m (zRawVecMul v1.buf k v.buf v.size m)
/-- `zVecDiv`, zm_vec.c:418-426 and 348-352; `tol` is `zTOL`. -/
def zVecDiv [Field K] [LinearOrder K] (tol : K) (v1 : VecRef) (k : K) (v : VecRef) (m : Mem K) : Res (Mem K × Bool) :=
  if !zVecSizeEqual v1 v then .ok (m, false)
  else if Misc.zIsTol k tol then .ok (m, false)
  else do return (← zRawVecDiv v1.buf k v.buf v.size m, true)
/-- `zVecAmp`, zm_vec.c:429-433 and 356-360. -/
def zVecAmp [Mul K] (v1 amp v : VecRef) (m : Mem K) : Res (Mem K × Bool) :=
  check3 v1 amp v m (zRawVecAmp v1.buf amp.buf v.buf v.size m)
/-- `zVecCat`, zm_vec.c:443-447 and 371-375. -/
def zVecCat [Add K] [Mul K] (v1 : VecRef) (k : K) (v2 v : VecRef) (m : Mem K) : Res (Mem K × Bool) :=
  check3 v1 v2 v m (zRawVecCat v1.buf k v2.buf v.buf v.size m)
/-- `zVecCopy`, zm_vec.c:98-108. -/
def zVecCopy (src dest : VecRef) (m : Mem K) : Res (Mem K × Bool) :=
  check2 src dest m (zRawVecCopy src.buf dest.buf dest.size m)

/-- `zVecInnerProd`, zm_vec.c:526-539: 0 on size mismatch. -/
def zVecInnerProd [Ring K] (v1 v2 : VecRef) (m : Mem K) : Res K :=
  if !zVecSizeEqual v1 v2 then .ok 0 else zRawVecInnerProd v1.buf v2.buf v1.size m

/-- `zVecSwap`, zm_vec.c:216-223: the guard as written (`i > size`). -/
def zVecSwap (v : VecRef) (i1 i2 : Int) (m : Mem K) : Res (Mem K × Bool) :=
  if i1 > v.size ∨ i2 > v.size then .ok (m, false) else do return (← zRawVecSwap v.buf i1 i2 m, true)

/-- memcpy of `n` cells with signed source/destination offsets; undefined on any out-of-range access or overlap. -/
def memcpyI (src dest : Int) (n : Nat) (m : Mem K) : Res (Mem K) :=
  if 0 < n ∧ ¬ (src + n ≤ dest ∨ dest + n ≤ src) then .ub
  else forUpM 0 n (fun i m => do m.wrI (dest+i) (← m.rdI (src+i))) m

/-- `zVecGet`, zm_vec.c:140-154 with `zRawVecGet` of zm_raw_vec.h:45. -/
def zVecGet (src : VecRef) (pos : Int) (dest : VecRef) (m : Mem K) : Res (Mem K × Bool) :=
  if pos + dest.size > src.size then .ok (m, false)
  else do return (← memcpyI (src.buf + pos) dest.buf dest.size m, true)

/-- `zVecPut`, zm_vec.c:157-171 with `zRawVecPut` of zm_raw_vec.h:46. -/
def zVecPut (dest : VecRef) (pos : Int) (src : VecRef) (m : Mem K) : Res (Mem K × Bool) :=
  if pos + src.size > dest.size then .ok (m, false)
  else do return (← memcpyI src.buf (dest.buf + pos) src.size m, true)

end Zm.Vec
