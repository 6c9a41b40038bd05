import Verif.Base.Fn
import Verif.Model.Misc
import Mathlib.Algebra.Order.Field.Basic
import Mathlib.Algebra.Module.Defs

/-! # B-spline parameters, NURBS and B-spline curves

Model of `src/zm_nurbs.c`.  `double` is an exact ordered field.  A B-spline parameter is given by its order, the number `nc` of
control points (`zBSplineParamCPNum`) and the knots `k : Nat → K`, of which the first `nc + order + 1` exist.  A curve point is an
element of an arbitrary `K`-module (one component is the case `V = K`).
-/

namespace Zm.NURBS
open Zm

section
variable {K : Type*} [Field K] [LinearOrder K]

/-- `zBSplineParamKnotInit`, zm_nurbs.c:54-65. -/
def zBSplineParamKnotInit (order nc : Nat) (k : Nat → K) : Nat → K :=
  let k := forUp 0 (order+1) (fun j k => set1 k j 0) k
  let k := forUp (order+1) (nc+1) (fun j k => set1 k j (k (j-1) + 1)) k
  forUp (max (order+1) (nc+1)) (nc+order+1) (fun j k => set1 k j (k (j-1))) k

/-- `zBSplineParamKnotNormalize`, zm_nurbs.c:68-72 (`size` is the number of knots; the checked `zVecDivDRC`
refuses a divisor that is at most `tol` and leaves the vector unchanged). -/
def zBSplineParamKnotNormalize (tol : K) (size : Nat) (k : Nat → K) : Nat → K :=
  let s := -k 0
  let k1 := forUp 0 size (fun j v => set1 v j (v j + s)) k
  let d := k1 (size-1)
  if |d| ≤ tol then k1 else forUp 0 size (fun j v => set1 v j (v j / d)) k1

/-- `zBSplineParamKnotScale`, zm_nurbs.c:75-79 with `zRawVecScaleUniform`, zm_raw_vec.c:260-264. -/
def zBSplineParamKnotScale (tol : K) (size : Nat) (k : Nat → K) (s e : K) : Nat → K :=
  let k := zBSplineParamKnotNormalize tol size k
  forUp 0 size (fun j v => set1 v j (s + v j * (e - s))) k

/-- The inner loop of zm_nurbs.c:88: skip empty segments upwards (`size` knots exist). -/
def skipUp (size : Nat) (k : Nat → K) : Nat → Nat → Res Nat
  | 0, _ => .ub
  | fuel+1, i => if i + 1 < size then (if k (i+1) = k i then skipUp size k fuel (i+1) else .ok i) else .ub

/-- The inner loop of zm_nurbs.c:89: skip empty segments downwards. -/
def skipDown (k : Nat → K) : Nat → Nat → Res Nat
  | 0, _ => .ub
  | fuel+1, j => if 0 < j then (if k (j-1) = k j then skipDown k fuel (j-1) else .ok j) else .ub

/-- The loop of `zBSplineParamSeg`, zm_nurbs.c:87-96 (`fuel` bounds the number of rounds). -/
def segLoop (size : Nat) (k : Nat → K) (t : K) : Nat → Nat → Nat → Res Nat
  | 0, _, _ => .ub
  | fuel+1, i, j =>
    (skipUp size k size i).bind fun i =>
    (skipDown k size j).bind fun j =>
    if j ≤ i + 1 then .ok i
    else
      let m := (i + j) / 2
      if k m > t then segLoop size k t fuel i m else segLoop size k t fuel m j

/-- `zBSplineParamSeg`, zm_nurbs.c:82-98. -/
def zBSplineParamSeg (order nc : Nat) (k : Nat → K) (t : K) : Res Nat :=
  segLoop (nc+order+1) k t (nc+1) order nc

/-- `zBSplineParamBasis`, zm_nurbs.c:101-120 (`r ≥ 0`). -/
def zBSplineParamBasis (k : Nat → K) (t : K) : (i r seg : Nat) → K
  | i, 0, seg => if i = seg then 1 else 0
  | i, r+1, seg =>
    let b : K := 0
    let b := if i + (r+1) ≥ seg then
        let t1 := k i
        let tr1 := k (i+(r+1))
        if tr1 ≠ t1 then b + (t - t1) / (tr1 - t1) * zBSplineParamBasis k t i r seg else b
      else b
    if i ≤ seg then
      let t1 := k (i+1)
      let tr1 := k (i+(r+1)+1)
      if tr1 ≠ t1 then b + (tr1 - t) / (tr1 - t1) * zBSplineParamBasis k t (i+1) r seg else b
    else b

/-- `zBSplineParamBasisDiff`, zm_nurbs.c:123-138 (`diff ≥ 0`).  For `r = 0` and `diff > 0` both knot differences vanish, so the
recursion stops with 0. -/
def zBSplineParamBasisDiff (order : Nat) (k : Nat → K) (t : K) : (i r seg diff : Nat) → K
  | i, r, seg, 0 => zBSplineParamBasis k t i r seg
  | i, r, seg, diff+1 =>
    if diff + 1 > order + 1 then 0
    else match r with
      | 0 => 0
      | r+1 =>
        let b : K := 0
        let dt := k (i+(r+1)) - k i
        let b := if i + (r+1) ≥ seg ∧ dt ≠ 0 then b + zBSplineParamBasisDiff order k t i r seg diff / dt else b
        let dt := k (i+(r+1)+1) - k (i+1)
        let b := if i ≤ seg ∧ dt ≠ 0 then b - zBSplineParamBasisDiff order k t (i+1) r seg diff / dt else b
        b * ((r+1 : Nat) : K)

variable {V : Type*} [AddCommGroup V] [Module K V]

/-- Numerator and denominator loop of `zNURBSVec`, zm_nurbs.c:219-223, in segment `s`. -/
def nurbsLoop (order : Nat) (k w : Nat → K) (P : Nat → V) (t : K) (s : Nat) : V × K :=
  forUp (s - order) (s+1) (fun i (a : V × K) =>
    let b := w i * zBSplineParamBasis k t i order s
    (a.1 + b • P i, a.2 + b)) (0, 0)

/-- `zNURBSVec`, zm_nurbs.c:212-226 (`tol` is `zTOL`). -/
def zNURBSVec (tol : K) (order nc : Nat) (k w : Nat → K) (P : Nat → V) (t : K) : Res V :=
  (zBSplineParamSeg order nc k t).bind fun s =>
    let a := nurbsLoop order k w P t s
    .ok (if |a.2| ≤ tol then P 0 else a.2⁻¹ • a.1)

/-- `zBSplineVec`, zm_nurbs.c:406-418. -/
def zBSplineVec (order nc : Nat) (k : Nat → K) (P : Nat → V) (t : K) : Res V :=
  (zBSplineParamSeg order nc k t).bind fun s =>
    .ok (forUp (s - order) (s+1) (fun i v => v + zBSplineParamBasis k t i order s • P i) 0)

/-- `zBSplineVecDiff`, zm_nurbs.c:421-439 (`diff ≥ 0`). -/
def zBSplineVecDiff (order nc : Nat) (k : Nat → K) (P : Nat → V) (t : K) (diff : Nat) : Res V :=
  if diff = 0 then zBSplineVec order nc k P t
  else if diff > order + 1 then .ok 0
  else (zBSplineParamSeg order nc k t).bind fun s =>
    .ok (forUp (s - order) (s+1) (fun i v => v + zBSplineParamBasisDiff order k t i order s diff • P i) 0)

/-- `_zNURBSDenDiff`, zm_nurbs.c:229-237. -/
def zNURBSDenDiff (order : Nat) (k w : Nat → K) (t : K) (s diff : Nat) : K :=
  forUp (s - order) (s+1) (fun i den => den + w i * zBSplineParamBasisDiff order k t i order s diff) 0

/-- Value of `zNURBSVec` once the segment is known. -/
def nurbsAt (tol : K) (order : Nat) (k w : Nat → K) (P : Nat → V) (t : K) (s : Nat) : V :=
  let a := nurbsLoop order k w P t s
  if |a.2| ≤ tol then P 0 else a.2⁻¹ • a.1

/-- `zNURBSVecDiff`, zm_nurbs.c:240-270, once the segment `s` is known (each recursive call finds the same segment);
`0 ≤ diff ≤ order+1`. -/
def nurbsDiffAt (tol : K) (order : Nat) (k w : Nat → K) (P : Nat → V) (t : K) (s : Nat) : Nat → V
  | 0 => nurbsAt tol order k w P t s
  | d+1 =>
    let a := forUp (s - order) (s+1) (fun i (a : V × K) =>
      let b := w i * zBSplineParamBasisDiff order k t i order s (d+1)
      (a.1 + b • P i, a.2 + w i * zBSplineParamBasis k t i order s)) (0, 0)
    let v := (List.range (d+1)).attach.foldl (fun v ⟨i, hi⟩ =>
      -- the loop counter of the code is i+1
      have : d - i < d + 1 := by omega
      v + (-(Misc.zCombination ((d+1 : Nat) : Int) ((i+1 : Nat) : Int) * zNURBSDenDiff order k w t s (i+1))) • nurbsDiffAt tol order k w P t s (d - i)) a.1
    if |a.2| ≤ tol then P 0 else a.2⁻¹ • v
termination_by d => d

/-- `zNURBSVecDiff`, zm_nurbs.c:240-270 (`diff ≥ 0`). -/
def zNURBSVecDiff (tol : K) (order nc : Nat) (k w : Nat → K) (P : Nat → V) (t : K) (diff : Nat) : Res V :=
  if diff > order + 1 then .fail
  else (zBSplineParamSeg order nc k t).bind fun s => .ok (nurbsDiffAt tol order k w P t s diff)

end
end Zm.NURBS
