import Verif.Base.Fn
import Verif.Model.Misc
import Verif.Model.LE
import Verif.Model.Pex
import Mathlib.Analysis.SpecialFunctions.Pow.Real

/-! # Interpolation

`src/zm_ip.c`, `src/zm_ip_lin.c`, `src/zm_ip_lagrange.c`, `src/zm_ip_chebyshev.c`, `src/zm_ip_spline.c`, `src/zm_ip_akima.c`,
`src/zm_ip_pex.c`, `src/zm_ip_trvelprof.c`, `src/zm_ip_clothoid.c`.

All vector operations of the interpolators act on each component separately, so one component is modelled: section values
are a function `x : Nat → K` of the knot index and the work space `va` of section vectors is a function `Nat → K`.
`n` is the number of knots, `dt i` the time increment stored in knot `i`. -/

namespace Zm.IP
open Zm Misc

section field
variable {K : Type*} [Field K] [LinearOrder K]

/-- The knot times computed by `zIPDataAlloc`, zm_ip.c:34-38: `t += dt` over the list. -/
def knotTime (dt : Nat → K) : Nat → K
  | 0 => 0 + dt 0
  | i+1 => knotTime dt i + dt (i+1)

/-- The loop of `zIPDataSeg`, zm_ip.c:55-59. -/
def segGo (T : Nat → K) (t : K) : Nat → Nat → Nat → Nat
  | 0, i, _ => i
  | fuel+1, i, j =>
    let k := (i + j) / 2
    if k = i then i
    else if T k > t then segGo T t fuel i k
    else segGo T t fuel k j

/-- `zIPDataSeg`, zm_ip.c:50-61 (`n ≥ 1` knots). -/
def zIPDataSeg (n : Nat) (T : Nat → K) (t : K) : Nat := segGo T t n 0 (n - 1)

/-! ## Linear interpolation, zm_ip_lin.c -/

/-- `zIPCreateLinear`, zm_ip_lin.c:63-74: the section vectors.  `zVecDivDRC` refuses a zero divisor and leaves its
argument as it is. -/
def linCreate (n : Nat) (dt x va : Nat → K) : Nat → K :=
  forUp 1 n (fun i va =>
    let va := set1 va (i-1) (x i - x (i-1))
    if dt i = 0 then va else set1 va (i-1) (va (i-1) / dt i)) va

/-- `_zIPVecLinear`, zm_ip_lin.c:10-16. -/
def linVec (n : Nat) (T x va : Nat → K) (t : K) : K :=
  let i := zIPDataSeg n T t
  x i + (t - T i) * va i

/-- `_zIPSecVelLinear`, zm_ip_lin.c:19-23. -/
def linSecVel (n : Nat) (va : Nat → K) (i : Int) : K :=
  if i < 0 ∨ i + 1 ≥ n then 0 else va i.toNat

/-- `_zIPVelLinear`, zm_ip_lin.c:39-42. -/
def linVel (n : Nat) (T va : Nat → K) (t : K) : K := linSecVel n va (zIPDataSeg n T t)

/-! ## Lagrange interpolation, zm_ip_lagrange.c -/

/-- `zIPCreateLagrange`, zm_ip_lagrange.c:85-99. -/
def lagCreate (n : Nat) (T x va : Nat → K) : Nat → K :=
  forUp 0 n (fun i va =>
    let a := forUp 0 n (fun j a => if i ≠ j then a * (T i - T j) else a) 1
    set1 va i (x i / a)) va

/-- `_zIPVecLagrange`, zm_ip_lagrange.c:10-23. -/
def lagVec (n : Nat) (T va : Nat → K) (t : K) : K :=
  forUp 0 n (fun i v =>
    let p := forUp 0 n (fun j p => if i ≠ j then p * (t - T j) else p) 1
    v + p * va i) 0

/-- `_zIPVelLagrange`, zm_ip_lagrange.c:26-41. -/
def lagVel (n : Nat) (T va : Nat → K) (t : K) : K :=
  forUp 0 n (fun i v => forUp (i+1) n (fun j v =>
    let p := forUp 0 n (fun k p => if k ≠ i ∧ k ≠ j then p * (t - T k) else p) 1
    let v := v + p * va i
    v + p * va j) v) 0

/-- `_zIPAccLagrange`, zm_ip_lagrange.c:44-61. -/
def lagAcc (n : Nat) (T va : Nat → K) (t : K) : K :=
  forUp 0 n (fun i v => forUp (i+1) n (fun j v => forUp (j+1) n (fun k v =>
    let p := forUp 0 n (fun l p => if l ≠ i ∧ l ≠ j ∧ l ≠ k then p * (t - T l) else p) 2
    let v := v + p * va i
    let v := v + p * va j
    v + p * va k) v) v) 0

/-! ## Chebyshev interpolation, zm_ip_chebyshev.c -/

/-- `_zIPScaleChebyshev`, zm_ip_chebyshev.c:10-13. -/
def chebScale (t tmin tmax : K) : K := (2 * t - (tmax + tmin)) / (tmax - tmin)

/-- Row `i` of the coefficient matrix built by `zIPCreateChebyshev`, zm_ip_chebyshev.c:130-137. -/
def chebRow (n : Nat) (x : K) (row : Nat → K) : Nat → K :=
  let row := set1 row 0 1
  let row := set1 row 1 x
  (forUp 2 n (fun j (s : (Nat → K) × K × K) =>
    let f := 2 * x * s.2.2 - s.2.1
    (set1 s.1 j f, s.2.2, f)) (row, 1, x)).1

/-- `zIPCreateChebyshev`, zm_ip_chebyshev.c:111-148 (`x i k` is component `k` of knot `i`; the failure of the linear solver is
not examined by the code, `v0` is the freshly allocated zero matrix that is used then). -/
def chebCreate (tol : K) (n dim : Nat) (T : Nat → K) (x : Nat → Nat → K) : Nat → Fin dim → K :=
  let r : Nat → Nat → K := fun i => chebRow n (chebScale (T i) (T 0) (T (n-1))) (fun _ => 0)
  match LE.zMulInvMatMat tol n dim r x (fun _ _ => 0) with
  | .ok v => v
  | _ => fun _ _ => 0

/-- `_zIPVecChebyshev`, zm_ip_chebyshev.c:16-33 (`n ≥ 2`). -/
def chebVec (n : Nat) (T va : Nat → K) (t : K) : K :=
  let x := chebScale t (T 0) (T (n-1))
  let v := va 0
  let v := v + x * va 1
  (forUp 2 n (fun i (s : K × K × K) =>
    let f := 2 * x * s.2.2 - s.2.1
    (s.1 + f * va i, s.2.2, f)) (v, 1, x)).1

/-- `_zIPVelChebyshev`, zm_ip_chebyshev.c:36-58 (`n ≥ 2`). -/
def chebVel (n : Nat) (T va : Nat → K) (t : K) : K :=
  let x := chebScale t (T 0) (T (n-1))
  let dx := 2 / (T (n-1) - T 0)
  (forUp 2 n (fun i (s : K × (K × K) × (K × K)) =>
    let (v, (f1, f2), (df1, df2)) := s
    let f := 2 * x * f2 - f1
    let df := 2 * (dx * f2 + x * df2) - df1
    (v + df * va i, (f2, f), (df2, df))) (va 1 * dx, (1, x), (0, dx))).1

/-- `_zIPAccChebyshev`, zm_ip_chebyshev.c:61-87. -/
def chebAcc (n : Nat) (T va : Nat → K) (t : K) : K :=
  let x := chebScale t (T 0) (T (n-1))
  let dx := 2 / (T (n-1) - T 0)
  (forUp 2 n (fun i (s : K × (K × K) × (K × K) × (K × K)) =>
    let (v, (f1, f2), (df1, df2), (ddf1, ddf2)) := s
    let f := 2 * x * f2 - f1
    let df := 2 * (dx * f2 + x * df2) - df1
    let ddf := 2 * (2 * dx * df2 + x * ddf2) - ddf1
    (v + ddf * va i, (f2, f), (df2, df), (ddf2, ddf))) (0, (1, x), (0, dx), (0, 0))).1

/-! ## Cubic spline, zm_ip_spline.c -/

/-- zm_ip_spline.c:12 -/
def ferg1 (t : K) : K := (3 - 2*t)*t*t
/-- zm_ip_spline.c:13 -/
def ferg2 (t : K) : K := (t - 1)*t*t
/-- zm_ip_spline.c:14 -/
def fergVel1 (t : K) : K := 6*t*(1 - t)
/-- zm_ip_spline.c:15 -/
def fergVel2 (t : K) : K := (3*t - 2)*t
/-- zm_ip_spline.c:16 -/
def fergAcc1 (t : K) : K := 6*(1 - 2*t)
/-- zm_ip_spline.c:17 -/
def fergAcc2 (t : K) : K := 2*(3*t - 1)

/-- `zFergusonVal`, zm_ip_spline.c:20-27. -/
def zFergusonVal (t term x0 v0 x1 v1 : K) : K :=
  let dt2 := t / term
  let dt1 := 1 - dt2
  ferg1 dt1 * x0 + ferg1 dt2 * x1 + term * (-ferg2 dt1 * v0 + ferg2 dt2 * v1)

/-- The section part of `_zIPVecSpline`, zm_ip_spline.c:36-43, for section `i`. -/
def splSegVec (dt T x va : Nat → K) (i : Nat) (t : K) : K :=
  let d := dt (i+1)
  let dt1 := (T (i+1) - t) / d
  let dt2 := (t - T i) / d
  (((0 + ferg1 dt1 * x i) + ferg1 dt2 * x (i+1)) + (-d * ferg2 dt1) * va i) + (d * ferg2 dt2) * va (i+1)

/-- The section part of `_zIPVelSpline`, zm_ip_spline.c:54-61. -/
def splSegVel (dt T x va : Nat → K) (i : Nat) (t : K) : K :=
  let d := dt (i+1)
  let dt1 := (T (i+1) - t) / d
  let dt2 := (t - T i) / d
  (((0 + (-fergVel1 dt1 / d) * x i) + (fergVel1 dt2 / d) * x (i+1)) + fergVel2 dt1 * va i) + fergVel2 dt2 * va (i+1)

/-- The section part of `_zIPAccSpline`, zm_ip_spline.c:72-79. -/
def splSegAcc (dt T x va : Nat → K) (i : Nat) (t : K) : K :=
  let d := dt (i+1)
  let dt1 := (T (i+1) - t) / d
  let dt2 := (t - T i) / d
  (((0 + (fergAcc1 dt1 / (d*d)) * x i) + (fergAcc1 dt2 / (d*d)) * x (i+1)) + (-fergAcc2 dt1 / d) * va i) + (fergAcc2 dt2 / d) * va (i+1)

/-- `_zIPVecSpline`, zm_ip_spline.c:30-45. -/
def splVec (n : Nat) (dt T x va : Nat → K) (t : K) : K := splSegVec dt T x va (zIPDataSeg n T t) t
/-- `_zIPVelSpline`, zm_ip_spline.c:48-63. -/
def splVel (n : Nat) (dt T x va : Nat → K) (t : K) : K := splSegVel dt T x va (zIPDataSeg n T t) t
/-- `_zIPAccSpline`, zm_ip_spline.c:66-81. -/
def splAcc (n : Nat) (dt T x va : Nat → K) (t : K) : K := splSegAcc dt T x va (zIPDataSeg n T t) t

/-- `_zIPSecVelSpline`, zm_ip_spline.c:84-88. -/
def splSecVel (n : Nat) (va : Nat → K) (i : Nat) : K := if i ≥ n then 0 else va i

/-- `_zIPSecAccSpline`, zm_ip_spline.c:91-107 (`n ≥ 2`, non-zero time increments). -/
def splSecAcc (n : Nat) (dt x va : Nat → K) (i : Nat) : K :=
  if i ≥ n then 0
  else if i = n - 1 then
    ((((0 + 6 / dt i * x (i-1)) + (-6 / dt i) * x i) + (-4) * va i) + (-2) * va (i-1)) / dt i
  else
    ((((0 + 6 / dt (i+1) * x (i+1)) + (-6 / dt (i+1)) * x i) + (-4) * va i) + (-2) * va (i+1)) / dt (i+1)

/-- `_zIPDataSplineCoeff`, zm_ip_spline.c:121-137: coefficients `(a,b,c,d)` of section `i`. -/
def splCoeff (dt x va : Nat → K) (i : Nat) : K × K × K × K :=
  let dt1 := dt (i+1)
  let dt2 := dt1 * dt1
  let dt3 := dt1 * dt2
  let c := x i - x (i+1)
  let d := va i + va (i+1)
  let a := c * (2/dt3)
  let a := a + 1/dt2 * d
  let b := c * (-3/dt2)
  let b := b + (-1/dt1) * d
  let b := b + (-1/dt1) * va i
  (a, b, va i, x i)

/-- Edge types, include/zm/zm_ip_spline.h: fixed edge with a prescribed velocity, or free edge. -/
inductive Edge (K : Type*) where
  | fix (v : K)
  | free

/-- The work space of `zIPCreateSpline`: vectors `a`, `b`, `c`, `d`. -/
structure Wk (K : Type*) where
  a : Nat → K
  b : Nat → K
  c : Nat → K
  d : Nat → K

/-- `_zIPFixEdgeSpline`/`_zIPFreeEdgeSpline` at the beginning, zm_ip_spline.c:151-166,201-207. -/
def edgeBegin (dt x : Nat → K) (e : Edge K) (w : Wk K) : Wk K :=
  match e with
  | .fix v => { w with b := set1 w.b 0 1, d := set1 w.d 0 v }
  | .free =>
    let r := 1 / dt 1
    { w with b := set1 w.b 0 (2 * r), c := set1 w.c 0 r, d := set1 w.d 0 (3 * (x 1 - x 0) / (dt 1 * dt 1)) }

/-- The same at the end, zm_ip_spline.c:209-215. -/
def edgeEnd (n : Nat) (dt x : Nat → K) (e : Edge K) (w : Wk K) : Wk K :=
  match e with
  | .fix v => { w with b := set1 w.b (n-1) 1, d := set1 w.d (n-1) v }
  | .free =>
    let r := 1 / dt (n-1)
    { w with a := set1 w.a (n-1) (2 * r), b := set1 w.b (n-1) r,
             d := set1 w.d (n-1) (3 * (x (n-1) - x (n-2)) / (dt (n-1) * dt (n-1))) }

/-- The interior equations, zm_ip_spline.c:187-199. -/
def splRows (n : Nat) (dt x : Nat → K) (w : Wk K) : Wk K :=
  forUp 1 (n-1) (fun j w =>
    let r1 := 1 / dt j
    let r2 := 1 / dt (j+1)
    let a := set1 w.a j r1
    let b := set1 w.b j (2 * (r1 + r2))
    let c := set1 w.c j r2
    let r1 := 3 / (dt j * dt j)
    let r2 := 3 / (dt (j+1) * dt (j+1))
    { a := a, b := b, c := c, d := set1 w.d j (-x (j-1) * r1 + x j * (r1 - r2) + x (j+1) * r2) }) w

/-- One pass of the component loop of `zIPCreateSpline`, zm_ip_spline.c:185-220 (`n ≥ 2`): builds and solves the equation
for one component.  The result is the solution and the work space left for the next component (`a`, `b` and `d` are
destroyed by the solver; the code ignores the solver's return value, and so a failure of the solver is kept as a
failure here). -/
def splComp (n : Nat) (dt x : Nat → K) (e1 e2 : Edge K) (w : Wk K) (v : Nat → K) : Res ((Nat → K) × Wk K) :=
  let w := splRows n dt x w
  let w := edgeBegin dt x e1 w
  let w := edgeEnd n dt x e2 w
  (LE.zLETridiagSolveDST n w.a w.b w.c w.d v).bind fun ans =>
    (LE.tridiagForward n w.c w.a w.b w.d).bind fun (a, b, d) => .ok (ans, { a := a, b := b, c := w.c, d := d })

/-- The edge condition of component `i` (zm_ip_spline.c:201-215): `none` for a free edge, `some v` for an edge fixed
at the velocity `v`. -/
def edgeOf (e : Option (Nat → K)) (i : Nat) : Edge K :=
  match e with
  | none => .free
  | some v => .fix (v i)

/-- `zIPCreateSpline`, zm_ip_spline.c:169-227, for `dim` components: the work space is allocated (zero) once and reused for
all the components.  Component `i` has section values `x i`.  Invalid edge types and allocation failure are not
modelled. -/
def splCreate (n dim : Nat) (dt : Nat → K) (x : Nat → Nat → K) (e1 e2 : Option (Nat → K)) : Res (Nat → Nat → K) :=
  (forUpM 0 dim (fun i (s : (Nat → Nat → K) × (Nat → K) × Wk K) =>
    (splComp n dt (x i) (edgeOf e1 i) (edgeOf e2 i) s.2.2 s.2.1).bind fun (v, w) => .ok (set1 s.1 i v, v, w))
    (fun _ _ => 0, fun _ => 0, { a := fun _ => 0, b := fun _ => 0, c := fun _ => 0, d := fun _ => 0 })).bind fun s => .ok s.1

/-! ## PCHIP -/

/-- `_zIPInitPCHIP`, zm_ip_spline.c:254-283 (`n ≥ 3`). -/
def pchipInit (n : Nat) (dt x va : Nat → K) : Nat → K :=
  let dt1 := dt 1
  let dt2 := dt 2
  let dt3 := dt1 + dt2
  let va := set1 va 0 (((0 + -(dt1+dt3)/(dt1*dt3) * x 0) + dt3/(dt1*dt2) * x 1) + -dt1/(dt2*dt3) * x 2)
  let n := n - 1
  let va := forUp 1 n (fun i va =>
    let dt1 := dt i
    let dt2 := dt (i+1)
    let dt3 := dt1 + dt2
    set1 va i (((0 + -dt2/(dt1*dt3) * x (i-1)) + (dt2-dt1)/(dt1*dt2) * x i) + dt1/(dt2*dt3) * x (i+1))) va
  let dt1 := dt (n-1)
  let dt2 := dt n
  let dt3 := dt1 + dt2
  set1 va n (((0 + dt2/(dt1*dt3) * x (n-2)) + -dt3/(dt1*dt2) * x (n-2)) + (dt2+dt3)/(dt2*dt3) * x n)

/-! ## Akima, zm_ip_akima.c -/

/-- `_zIPVecAkima`, zm_ip_akima.c:16-22, in section `i`. -/
def akSegVec (dt T x va : Nat → K) (i : Nat) (t : K) : K :=
  let d := dt (i+1)
  let d2 := d*d
  let dt := t - T i
  let dt2 := dt*dt
  let v := x (i+1) - x i
  let v := v * (dt2*(3-2*dt/d)/d2)
  let v := v + (dt*(1-2*dt/d+dt2/d2)) * va i
  let v := v + (dt2*(dt/d-1)/d) * va (i+1)
  v + x i

/-- `_zIPVelAkima`, zm_ip_akima.c:32-37, in section `i`. -/
def akSegVel (dt T x va : Nat → K) (i : Nat) (t : K) : K :=
  let d := dt (i+1)
  let dt := (t - T i) / d
  let v := x (i+1) - x i
  let v := v * (6*dt*(1-dt)/d)
  let v := v + (1-4*dt+3*(dt*dt)) * va i
  v + dt*(3*dt-2) * va (i+1)

/-- `_zIPAccAkima`, zm_ip_akima.c:48-53, in section `i`. -/
def akSegAcc (dt T x va : Nat → K) (i : Nat) (t : K) : K :=
  let d := dt (i+1)
  let d2 := d*d
  let dt := t - T i
  let v := x (i+1) - x i
  let v := v * (6*(1-2/d*dt)/d2)
  let v := v + (6/d2*dt-4/d) * va i
  v + (6/d2*dt-2/d) * va (i+1)

/-- `_zIPVecAkima`, zm_ip_akima.c:10-23. -/
def akVec (n : Nat) (dt T x va : Nat → K) (t : K) : K := akSegVec dt T x va (zIPDataSeg n T t) t
/-- `_zIPVelAkima`, zm_ip_akima.c:26-39. -/
def akVel (n : Nat) (dt T x va : Nat → K) (t : K) : K := akSegVel dt T x va (zIPDataSeg n T t) t
/-- `_zIPAccAkima`, zm_ip_akima.c:42-55. -/
def akAcc (n : Nat) (dt T x va : Nat → K) (t : K) : K := akSegAcc dt T x va (zIPDataSeg n T t) t
/-- `_zIPSecVelAkima`, zm_ip_akima.c:58-62. -/
def akSecVel (n : Nat) (va : Nat → K) (i : Nat) : K := if i ≥ n ∨ i = 0 then 0 else va i

/-- `_zIPAkimaWeight`, zm_ip_akima.c:147-150. -/
def akWeight (m : Nat → K) (j : Nat) : K := |m (j+1) - m j|
/-- `_zIPModifiedAkimaWeight`, zm_ip_akima.c:153-156. -/
def akWeightMod (m : Nat → K) (j : Nat) : K := |m (j+1) - m j| + 1/2 * |m (j+1) + m j|

/-- The slopes `m`, zm_ip_akima.c:126-132 (`n ≥ 3`). -/
def akSlopes (n : Nat) (dt x : Nat → K) (m : Nat → K) : Nat → K :=
  let m := forUp 2 (n+1) (fun j m => set1 m j ((x (j-1) - x (j-2)) / dt (j-1))) m
  let m := set1 m 0 (3 * m 2 - 2 * m 3)
  let m := set1 m 1 (2 * m 2 - m 3)
  let m := set1 m (n+1) (2 * m n - 2 * m (n-1))
  set1 m (n+2) (3 * m n - m (n-1))

/-- `_zIPCreateAkima`, zm_ip_akima.c:113-144, one component.  `tol` is `zTOL`. -/
def akCreate (tol : K) (weight : (Nat → K) → Nat → K) (n : Nat) (dt x m va : Nat → K) : Nat → K :=
  let m := akSlopes n dt x m
  forUp 0 n (fun j va =>
    let dm1 := weight m j
    let dm2 := weight m (j+2)
    set1 va j (if |dm1| ≤ tol ∧ |dm2| ≤ tol then 1/2 * (dm1 + dm2) else (dm2 * m (j+1) + dm1 * m (j+2)) / (dm1 + dm2))) va

/-! ## Polynomial interpolation, zm_ip_pex.c -/

/-- `zPexIPCreateBoundary`, zm_ip_pex.c:29-56: coefficients for `m` extra coefficients `v` (degree `m + 5`). -/
def pexBoundary (term x1 v1 a1 x2 v2 a2 : K) (m : Nat) (v : Nat → K) : Res (Nat → K) :=
  if term = 0 then .fail
  else
    let n := m + 5
    let n1 := n - 1
    let n2 := n - 2
    let k1 := x2 - x1 - (v1 + 1/2*a1*term) * term
    let k2 := (v2 - v1 - a1*term) * term
    let k3 := (a2 - a1) * (term*term)
    let c : Nat → K := fun _ => 0
    let c := set1 c 0 x1
    let c := set1 c 1 (v1*term)
    let c := set1 c 2 (1/2*a1*(term*term))
    let c := set1 c n2 (1/2*k1*n*n1 - k2*n1 + 1/2*k3)
    let c := set1 c n1 (-k1*n*n2 + k2*(2*n-3) - k3)
    let c := set1 c n (1/2*k1*n1*n2 - k2*n2 + 1/2*k3)
    .ok (forUp 3 (n-3+1) (fun i c =>
      let k1 := v (i-3)
      let c := set1 c i k1
      let c := set1 c n (c n + -(1/2)*((n1:K)-i)*((n2:K)-i)*k1)
      let c := set1 c n1 (c n1 + ((n:K)-i)*((n2:K)-i)*k1)
      set1 c n2 (c n2 + -(1/2)*((n:K)-i)*((n1:K)-i)*k1)) c)

/-- `zPexIPVal`, zm_ip_pex.c:155-158, for a polynomial with `size` coefficients. -/
def pexIPVal (size : Nat) (c : Nat → K) (term t : K) : K := Pex.zPexVal { size := size, c := c } (t / term)
/-- `zPexIPVel`, zm_ip_pex.c:161-164. -/
def pexIPVel (size : Nat) (c : Nat → K) (term t : K) : K := Pex.zPexDifVal { size := size, c := c } 1 (t / term) / term
/-- `zPexIPAcc`, zm_ip_pex.c:167-170. -/
def pexIPAcc (size : Nat) (c : Nat → K) (term t : K) : K := Pex.zPexDifVal { size := size, c := c } 2 (t / term) / (term * term)

/-- The equation built by `zPexIPCreateLSM`, zm_ip_pex.c:80-88, for `n` points and `m` coefficients. -/
def pexLSM (n m : Nat) (term : K) (t x : Nat → K) : (Nat → Nat → K) × (Nat → K) :=
  forUp 0 n (fun i (s : (Nat → Nat → K) × (Nat → K)) =>
    let v : Nat → K := fun j => (t i / term) ^ j
    forUp 0 m (fun j (s : (Nat → Nat → K) × (Nat → K)) =>
      let a := forUp 0 m (fun k a => set2 a j k (a j k + v (j+k))) s.1
      (a, set1 s.2 j (s.2 j + x i * v j))) s) (fun _ _ => 0, fun _ => 0)

/-- The equation built by `zPexIPCreateBounderyLSM`, zm_ip_pex.c:120-143 (`m = dim+1 ≥ 6` coefficients). -/
def pexBoundaryLSM (n m : Nat) (term x1 v1 a1 x2 v2 a2 : K) (t x : Nat → K) : (Nat → Nat → K) × (Nat → K) :=
  let s := forUp 0 n (fun i (s : (Nat → Nat → K) × (Nat → K)) =>
    let v : Nat → K := fun j => (t i / term) ^ j
    forUp 3 (m-3) (fun j (s : (Nat → Nat → K) × (Nat → K)) =>
      let a := forUp 0 m (fun k a => set2 a j k (a j k + v (j+k))) s.1
      (a, set1 s.2 j (s.2 j + x i * v j))) s) ((fun _ _ => 0 : Nat → Nat → K), (fun _ => 0 : Nat → K))
  let a := s.1
  let a := set2 a 0 0 1
  let a := set2 a 1 1 (1/term)
  let a := set2 a 2 2 (2/(term*term))
  let a := forUp 0 m (fun i a => set2 a (m-3) i 1) a
  let a := forUp 1 m (fun i a => set2 a (m-2) i (i:K)) a
  let a := forUp 2 m (fun i a => set2 a (m-1) i ((i:K)*((i:K)-1))) a
  let b := s.2
  let b := set1 b 0 x1
  let b := set1 b 1 v1
  let b := set1 b 2 a1
  let b := set1 b (m-3) x2
  let b := set1 b (m-2) v2
  let b := set1 b (m-1) a2
  (a, b)

end field

/-- `_zIPModifyPCHIP`, zm_ip_spline.c:286-308 (one component; `tol` is `zTOL`). -/
noncomputable def pchipModify (tol : ℝ) (n : Nat) (dt x va : Nat → ℝ) : Nat → ℝ :=
  forUp 0 (n-1) (fun i va =>
    let d := (x (i+1) - x i) / dt (i+1)
    if |d| ≤ tol then
      let va := set1 va i 0
      set1 va (i+1) 0
    else
      let a := va i / d
      let b := va (i+1) / d
      let l := Real.sqrt (a*a + b*b)
      if l ≥ 3 then
        let va := set1 va i (a * d * 3 / l)
        set1 va (i+1) (b * d * 3 / l)
      else va) va

/-- `zTRVelProf`, include/zm/zm_ip_trvelprof.h:17-25 (`acc` is `acc_max`, `dist` is `_distance`). -/
structure TRVel where
  v0 : ℝ
  vT : ℝ
  vmax : ℝ
  acc : ℝ
  dist : ℝ
  t : ℝ
  t1 : ℝ
  t2 : ℝ

open Classical in
/-- `zTRVelProfCreate`, zm_ip_trvelprof.c:10-53. -/
noncomputable def zTRVelProfCreate (v0 vT vmax acc dist : ℝ) : Res TRVel :=
  if dist < 0 then .fail
  else if vmax ≤ 0 then .fail
  else if v0 > vmax then .fail
  else if vT > vmax then .fail
  else if acc ≤ 0 then .fail
  else
    let t1 := (vmax - v0) / acc
    let dt3 := (vmax - vT) / acc
    let d1 := (v0 + 1/2 * acc * t1) * t1
    let d3 := (vT + 1/2 * acc * dt3) * dt3
    if d1 + d3 < dist then
      let t2 := t1 + (dist - d1 - d3) / vmax
      .ok { v0 := v0, vT := vT, vmax := vmax, acc := acc, dist := dist, t1 := t1, t2 := t2, t := t2 + dt3 }
    else
      let vm := Real.sqrt (1/2 * (v0*v0 + vT*vT + 2*acc*dist))
      let t1 := (vm - v0) / acc
      .ok { v0 := v0, vT := vT, vmax := vmax, acc := acc, dist := dist, t1 := t1, t2 := t1, t := t1 + (vm - vT) / acc }

open Classical in
/-- `zTRVelProfDist`, zm_ip_trvelprof.c:56-65. -/
noncomputable def zTRVelProfDist (p : TRVel) (t : ℝ) : ℝ :=
  if t < p.t1 then (p.v0 + 1/2 * p.acc * t) * t
  else
    let d := (p.v0 + 1/2 * p.acc * p.t1) * p.t1
    if t < p.t2 then d + p.vmax * (t - p.t1)
    else
      let dt := p.t - t
      p.dist - (p.vT + 1/2 * p.acc * dt) * dt

open Classical in
/-- `zTRVelProfVel`, zm_ip_trvelprof.c:68-73. -/
noncomputable def zTRVelProfVel (p : TRVel) (t : ℝ) : ℝ :=
  if t < p.t1 then p.v0 + p.acc * t
  else if t < p.t2 then p.vmax
  else p.vT + p.acc * (p.t - t)

open Classical in
/-- `zTRVelProfAcc`, zm_ip_trvelprof.c:76-81. -/
noncomputable def zTRVelProfAcc (p : TRVel) (t : ℝ) : ℝ :=
  if t < p.t1 then p.acc
  else if t < p.t2 then 0
  else -p.acc

/-! ## Clothoid, zm_ip_clothoid.c -/

open Classical in
/-- `zFresnelIntgGen`, zm_sf_fresnel.c:128-153, returning `(s, c)`; `scale` stands for `zFresnelIntgScale` (its results are
assumed valid, i.e. it returns true). -/
noncomputable def zFresnelIntgGen (tol : ℝ) (scale : ℝ → ℝ → ℝ × ℝ) (x f0 f1 f2 : ℝ) : ℝ × ℝ :=
  if |f2| ≤ tol then
    let s1 := Real.sin f0
    let c1 := Real.cos f0
    if |f1| ≤ tol then (x * s1, x * c1)
    else
      let s2 := Real.sin (f0 + f1 * x)
      let c2 := Real.cos (f0 + f1 * x)
      (-(c2 - c1) / f1, (s2 - s1) / f1)
  else
    let p1 := scale (x + 1/2*f1/f2) f2
    let p2 := scale (1/2*f1/f2) f2
    let s1 := p1.1 - p2.1
    let c1 := p1.2 - p2.2
    let s2 := Real.sin (f0 - 1/4 * f1*f1 / f2)
    let c2 := Real.cos (f0 - 1/4 * f1*f1 / f2)
    (c1*s2 + s1*c2, c1*c2 - s1*s2)

/-- `zClothoid`, include/zm/zm_ip_clothoid.h. -/
structure Clothoid where
  x0 : ℝ
  y0 : ℝ
  f0 : ℝ
  fc : ℝ
  fs : ℝ
  h : ℝ

/-- `zClothoidXY`, zm_ip_clothoid.c:56-64. -/
noncomputable def zClothoidXY (tol : ℝ) (scale : ℝ → ℝ → ℝ × ℝ) (cl : Clothoid) (s : ℝ) : ℝ × ℝ :=
  let (dy, dx) := zFresnelIntgGen tol scale s cl.f0 cl.fc cl.fs
  (cl.x0 + cl.h * dx, cl.x0 + cl.h * dy)

end Zm.IP
