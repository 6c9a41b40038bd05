import Verif.Base.Fn
import Verif.Model.Misc
import Mathlib.Analysis.SpecialFunctions.Complex.Arg
import Mathlib.Analysis.SpecialFunctions.Pow.Real
import Mathlib.Analysis.SpecialFunctions.Trigonometric.Basic

/-! # Complex numbers, quadratic and cubic equations, complex vectors

Model of `src/zm_complex.c`, `src/zm_complex_arith.c`, `src/zm_complex_pe.c` and `src/zm_cvec.c`, over the real numbers.  A pointer to a
complex number is an index into a heap of complex numbers; the two members are written one after the other, as the macros do, so results may
share memory with arguments.  `sqrt`, `pow`, `exp`, `log`, `sin`, `cos` and `atan2` of the C library are taken as the exact functions;
`atan2(y,x)` is the argument of `x + i y`. -/

namespace Zm.Cplx
open Zm Zm.Misc

noncomputable section

/-- Heap of complex numbers. -/
abbrev Heap := Nat → ℂ

/-- `_zComplexCreate`, zm_complex.h:34-37: the real part is written first, and the expression of the imaginary part sees it. -/
def create (m : Heap) (p : Nat) (r i : Heap → ℝ) : Heap :=
  let m := set1 m p ⟨r m, (m p).im⟩
  set1 m p ⟨(m p).re, i m⟩

/-- `atan2` of the C library. -/
def atan2 (y x : ℝ) : ℝ := Complex.arg ⟨x, y⟩

/-- `_zComplexSqrAbs`, zm_complex_arith.h:17. -/
def zComplexSqrAbs (c : ℂ) : ℝ := c.re * c.re + c.im * c.im

/-- `_zComplexAbs`, zm_complex_arith.h:23. -/
def zComplexAbs (c : ℂ) : ℝ := Real.sqrt (zComplexSqrAbs c)

/-- `_zComplexArg`, zm_complex_arith.h:30. -/
def zComplexArg (c : ℂ) : ℝ := atan2 c.im c.re

/-- `_zComplexConj`, zm_complex_arith.h:38. -/
def zComplexConj (m : Heap) (c cc : Nat) : Heap := create m cc (fun m => (m c).re) (fun m => -(m c).im)

/-- `_zComplexAdd`, zm_complex_arith.h:71. -/
def zComplexAdd (m : Heap) (c1 c2 c : Nat) : Heap := create m c (fun m => (m c1).re + (m c2).re) (fun m => (m c1).im + (m c2).im)

/-- `_zComplexSub`, zm_complex_arith.h:72. -/
def zComplexSub (m : Heap) (c1 c2 c : Nat) : Heap := create m c (fun m => (m c1).re - (m c2).re) (fun m => (m c1).im - (m c2).im)

/-- `_zComplexRev`, zm_complex_arith.h:73. -/
def zComplexRev (m : Heap) (c rc : Nat) : Heap := create m rc (fun m => -(m c).re) (fun m => -(m c).im)

/-- `_zComplexMul`, zm_complex_arith.h:74. -/
def zComplexMul (m : Heap) (c : Nat) (k : ℝ) (ec : Nat) : Heap := create m ec (fun m => (m c).re * k) (fun m => (m c).im * k)

/-- `_zComplexCMul`, zm_complex_arith.h:75. -/
def zComplexCMul (m : Heap) (c1 c2 c : Nat) : Heap :=
  create m c (fun m => (m c1).re * (m c2).re - (m c1).im * (m c2).im) (fun m => (m c1).re * (m c2).im + (m c1).im * (m c2).re)

/-- `_zComplexCMulConj`, zm_complex_arith.h:76. -/
def zComplexCMulConj (m : Heap) (c1 c2 c : Nat) : Heap :=
  create m c (fun m => (m c1).re * (m c2).re + (m c1).im * (m c2).im) (fun m => -(m c1).re * (m c2).im + (m c1).im * (m c2).re)

/-- `zComplexDiv`, zm_complex_arith.c:63-72; `tol` is `zTOL`, the null pointer is `fail`. -/
def zComplexDiv (tol : ℝ) (m : Heap) (c : Nat) (k : ℝ) (rc : Nat) : Res Heap :=
  if |k| ≤ tol then .fail else .ok (zComplexMul m c (1 / k) rc)

/-- The inverse of a number that is not in the heap: `zComplexInv`, zm_complex_arith.c:89-97, for a local variable. -/
def invVal (tol : ℝ) (c : ℂ) : Res ℂ :=
  let r2 := zComplexSqrAbs c
  let cc : ℂ := ⟨c.re, -c.im⟩
  if |r2| ≤ tol then .fail else .ok ⟨cc.re * (1 / r2), cc.im * (1 / r2)⟩

/-- `zComplexInv`, zm_complex_arith.c:89-97. -/
def zComplexInv (tol : ℝ) (m : Heap) (c ic : Nat) : Res Heap :=
  match invVal tol (m c) with
  | .ok z => .ok (set1 m ic z)
  | .fail => .fail
  | .ub => .ub

/-- `zComplexCDiv`, zm_complex_arith.c:100-107.  The outcome of `zComplexInv` is not looked at: when it fails, the local variable is read
without a value, which is `ub`. -/
def zComplexCDiv (tol : ℝ) (m : Heap) (c1 c2 c : Nat) : Res Heap :=
  match invVal tol (m c2) with
  | .ok cc => .ok (create m c (fun m => (m c1).re * cc.re - (m c1).im * cc.im) (fun m => (m c1).re * cc.im + (m c1).im * cc.re))
  | _ => .ub

/-- `zComplexCMulDRC`, zm_complex_arith.c:110-117. -/
def zComplexCMulDRC (m : Heap) (c1 c2 : Nat) : Heap :=
  set1 m c1 ⟨(m c1).re * (m c2).re - (m c1).im * (m c2).im, (m c1).re * (m c2).im + (m c1).im * (m c2).re⟩

/-- `zComplexCMulConjDRC`, zm_complex_arith.c:120-127. -/
def zComplexCMulConjDRC (m : Heap) (c1 c2 : Nat) : Heap :=
  set1 m c1 ⟨(m c1).re * (m c2).re + (m c1).im * (m c2).im, -(m c1).re * (m c2).im + (m c1).im * (m c2).re⟩

/-- `zComplexCDivDRC`, zm_complex_arith.c:130-137. -/
def zComplexCDivDRC (tol : ℝ) (m : Heap) (c1 c2 : Nat) : Res Heap :=
  match invVal tol (m c2) with
  | .ok cc => .ok (set1 m c1 ⟨(m c1).re * cc.re - (m c1).im * cc.im, (m c1).re * cc.im + (m c1).im * cc.re⟩)
  | _ => .ub

/-- `_zComplexCreatePolar`, zm_complex.h:47. -/
def polar (r t : ℝ) : ℂ := ⟨r * Real.cos t, r * Real.sin t⟩

/-- `zComplexPow`, zm_complex_arith.c:140-148 (the result, from the value of the argument). -/
def zComplexPow (c : ℂ) (z : ℝ) : ℂ := polar (zComplexAbs c ^ z) (zComplexArg c * z)

/-- `zComplexPowRef`, zm_complex_arith.c:151-162, with a reference. -/
def zComplexPowRef (tol : ℝ) (c : ℂ) (z : ℝ) (ref : ℂ) : ℂ :=
  let r := zComplexAbs c ^ z
  let theta := zComplexArg c * z
  let w := 2 * Real.pi * z
  let theta := if ¬ |z| ≤ tol then theta + w * (⌈(zComplexArg ref - theta) / w⌉ : ℤ) else theta
  polar r theta

/-- `zComplexCPow`, zm_complex_arith.c:165-173. -/
def zComplexCPow (c z : ℂ) : ℂ :=
  polar (zComplexAbs c ^ z.re * Real.exp (-z.im * zComplexArg c)) (z.re * zComplexArg c + z.im * Real.log (zComplexAbs c))

/-- `zComplexLog`, zm_complex_arith.c:176-189.  The logarithm of zero is not finite, which is left to the theorem. -/
def zComplexLog (c : ℂ) (base : ℝ) : Res ℂ :=
  if base ≤ 0 ∨ base = 1 then .fail
  else .ok ⟨Real.log (zComplexAbs c) / Real.log base, zComplexArg c / Real.log base⟩

/-- `zComplexCLog`, zm_complex_arith.c:192-213. -/
def zComplexCLog (c base : ℂ) : Res ℂ :=
  let rb := zComplexAbs base
  let thetab := zComplexArg base
  if rb = 0 then .fail
  else
    let lrb := Real.log rb
    let d := lrb * lrb + thetab * thetab
    if d = 0 then .fail
    else
      let thetac := zComplexArg c
      let lrc := Real.log (zComplexAbs c)
      .ok ⟨(lrb * lrc + thetab * thetac) / d, (thetac * lrb - thetab * lrc) / d⟩

/-- `zComplexNormalize`, zm_complex_arith.c:216-219. -/
def zComplexNormalize (tol : ℝ) (m : Heap) (c nc : Nat) : Res Heap := zComplexDiv tol m c (zComplexAbs (m c)) nc

/-- `zComplexTouchup`, zm_complex.c:31-40; a quotient by zero is infinite or not a number, so it is not within the tolerance. -/
def zComplexTouchup (c : ℂ) (tol : ℝ) : ℂ :=
  ⟨if (c.im ≠ 0 ∧ |c.re / c.im| ≤ tol) ∨ |c.re| ≤ tol then 0 else c.re, if (c.re ≠ 0 ∧ |c.im / c.re| ≤ tol) ∨ |c.im| ≤ tol then 0 else c.im⟩

/-- `zComplexEqual`, zm_complex.h:89. -/
def zComplexEqual (c1 c2 : ℂ) (tol : ℝ) : Bool := zEqual (.fin c1.re) (.fin c2.re) tol && zEqual (.fin c1.im) (.fin c2.im) tol

/-- `zComplexCoconj`, zm_complex.h:95. -/
def zComplexCoconj (c1 c2 : ℂ) (tol : ℝ) : Bool := zEqual (.fin c1.re) (.fin c2.re) tol && zEqual (.fin c1.im) (.fin (-c2.im)) tol

/-! ## Equations -/

/-- `zQESolve`, zm_complex_pe.c:10-32; a zero divisor is `ub`. -/
def zQESolve (a b c : ℝ) : Res (ℂ × ℂ) :=
  if a = 0 then .fail
  else
    let d := b * b - 4 * a * c
    if d ≥ 0 then
      let d := Real.sqrt d
      let q := -(1/2) * (b + if b ≥ 0 then d else -d)
      if q = 0 then .ub else .ok (⟨q / a, 0⟩, ⟨c / q, 0⟩)
    else
      let a := a * 2
      let d := Real.sqrt (-d) / a
      let b := b / -a
      .ok (⟨b, d⟩, ⟨b, -d⟩)

/-- `zCbrt`, zm_misc.c:91-98. -/
def zCbrt (x : ℝ) : ℝ :=
  if x = 0 then 0
  else
    let w := if x > 0 then x ^ (1 / 3 : ℝ) else -(-x) ^ (1 / 3 : ℝ)
    1/2 * (w + 3 * x / (2 * w * w + x / w))

/-- `zCESolve`, zm_complex_pe.c:35-64. -/
def zCESolve (a b c d : ℝ) : Res (ℂ × ℂ × ℂ) :=
  if a = 0 then .fail
  else
    let b := b / (3 * a)
    let c := c / a
    let d := d / a
    let p := c / 3 - b * b
    let q := -b * (2 * b * b - c) - d
    let g := q * q + 4 * p * p * p
    if g > 0 then
      let w := Real.sqrt g
      let z1 := zCbrt (1/2 * (q + w))
      let z2 := zCbrt (1/2 * (q - w))
      .ok (⟨z1 + z2 - b, 0⟩, ⟨-(1/2) * (z1 + z2) - b, 1/2 * Real.sqrt 3 * (z1 - z2)⟩, ⟨-(1/2) * (z1 + z2) - b, -(1/2 * Real.sqrt 3 * (z1 - z2))⟩)
    else
      let z1 := if q ≠ 0 then atan2 (Real.sqrt (-g)) q else Real.pi / 2
      let w := 2 * Real.sqrt (-p)
      .ok (⟨w * Real.cos (z1 / 3) - b, 0⟩, ⟨-w * Real.cos ((Real.pi - z1) / 3) - b, 0⟩, ⟨-w * Real.cos ((Real.pi + z1) / 3) - b, 0⟩)

/-! ## Complex vectors -/

/-- The search for a partner and the exchange, zm_cvec.c:204-209, for the elements behind the one that is paired: the partner found and the
rest in the order left by the exchange. -/
def findPair (f : ℂ → Bool) : List ℂ → Option (ℂ × List ℂ)
  | [] => none
  | x :: l =>
    if f x then some (x, l)
    else match l.findIdx? f with
      | none => none
      | some j => some (l.getD j 0, l.set j x)

/-- The loop of `zCVecConjPair`, zm_cvec.c:203-214. -/
def conjPairLoop (tol : ℝ) : Nat → List ℂ → Res (List ℂ)
  | 0, l => .ok l
  | _+1, [] => .ok []
  | n+1, a :: l => match findPair (fun z => zComplexCoconj a z tol) l with
    | none => .fail
    | some (b, l') => (conjPairLoop tol n l').bind fun r => .ok (a :: b :: r)

/-- `zCVecConjPair`, zm_cvec.c:195-216. -/
def zCVecConjPair (tol : ℝ) (v : List ℂ) : Res (List ℂ) :=
  if v.length % 2 = 1 then .fail else conjPairLoop tol v.length v

/-- `zCVecToReImVec`, zm_cvec.c:155-192, when memory suffices. -/
def zCVecToReImVec (tol : ℝ) (v : List ℂ) : Res (List ℝ × List ℂ) :=
  let r := v.filter fun z => decide (|z.im| ≤ tol)
  let i := v.filter fun z => !decide (|z.im| ≤ tol)
  if r = [] ∧ i = [] then .fail
  else if i = [] then .ok (r.map Complex.re, [])
  else (zCVecConjPair tol i).bind fun i => .ok (r.map Complex.re, i)

/-- `zCVecInnerProdNC`, zm_cvec.c:386-397. -/
def zCVecInnerProdNC (n : Nat) (v1 v2 : Nat → ℂ) : ℂ :=
  forUp 0 n (fun i z =>
    let c : ℂ := ⟨(v1 i).re * (v2 i).re + (v1 i).im * (v2 i).im, -(v1 i).re * (v2 i).im + (v1 i).im * (v2 i).re⟩
    ⟨z.re + c.re, z.im + c.im⟩) ⟨0, 0⟩

/-- `zCVecSqrNorm`, zm_cvec.c:410-415. -/
def zCVecSqrNorm (n : Nat) (v : Nat → ℂ) : ℝ := zComplexAbs (zCVecInnerProdNC n v v)

/-- `zCVecCDiv`, zm_cvec.c:368-376, with `zCVecCDivNC`, zm_cvec.c:282-294, for vectors of the same size.  The outcome of `zComplexDiv` is not
looked at: when it fails, the conjugate is left as it is. -/
def zCVecCDiv (tol : ℝ) (n : Nat) (v1 : Nat → ℂ) (z : ℂ) (v : Nat → ℂ) : Res (Nat → ℂ) :=
  if |z.re| ≤ tol ∧ |z.im| ≤ tol then .fail
  else
    let r := zComplexSqrAbs z
    let dz : ℂ := ⟨z.re, -z.im⟩
    let dz : ℂ := if |r| ≤ tol then dz else ⟨dz.re * (1 / r), dz.im * (1 / r)⟩
    .ok (forUp 0 n (fun i v => set1 v i ⟨(v1 i).re * dz.re - (v1 i).im * dz.im, (v1 i).re * dz.im + (v1 i).im * dz.re⟩) v)

end
end Zm.Cplx
