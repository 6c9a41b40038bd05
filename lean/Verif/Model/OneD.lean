import Verif.Base.Res
import Verif.Model.Misc
import Mathlib.Algebra.Order.Field.Basic

/-! # Equations and optimisation in one variable

Model of `src/zm_nle_se.c` and `src/zm_opt_line.c`.  The function is any function of an exact ordered field.  Random numbers are an arbitrary
sequence of numbers.  The result of a root finder is paired with a flag that is `false` when the code has issued a warning.  Dividing by zero
is rendered as `ub`. -/

namespace Zm.OneD
open Zm Zm.Misc

/-- `ZITERINIT`, zm_misc.h:97. -/
def iterInit (iter : Int) : Nat := if iter ≤ 0 then 10000 else iter.toNat

section
variable {K : Type*} [Field K] [LinearOrder K]

/-- Outcome of `_zNLE_Bracket`: `-1`, `1`, `2` and `0`. -/
inductive BrOut (K : Type*) where
  | fail
  | root1
  | root2
  | found (x1 x2 f1 f2 : K)

/-- The loop of `_zNLE_Bracket`, zm_nle_se.c:25-34, with `k` more rounds; `rnd count` are the two random numbers drawn after round `count`.
In the cases `root1` and `root2` the code leaves `*x1` and `*x2` as they are. -/
def bracketLoop (f : K → K) (tol : K) (rnd : Nat → K × K) : Nat → Nat → K → K → BrOut K
  | 0, _, _, _ => .fail
  | k+1, count, x1, x2 =>
    if |f x1| ≤ tol then .root1
    else if |f x2| ≤ tol then .root2
    else if f x1 * f x2 < 0 then .found x1 x2 (f x1) (f x2)
    else bracketLoop f tol rnd k (count+1) (rnd count).1 (rnd count).2

/-- The loop of `zNLE_Bisec`, zm_nle_se.c:54-64, with `n` more rounds. -/
def bisecLoop (f : K → K) (tol : K) : Nat → K → K → K → K → K × Bool
  | 0, _, _, _, xm => (xm, false)
  | n+1, x1, x2, f1, _ =>
    let xm := (1/2) * (x1 + x2)
    let fm := f xm
    if |fm| ≤ tol then (xm, true)
    else if f1 * fm < 0 then bisecLoop f tol n x1 xm f1 xm
    else bisecLoop f tol n xm x2 fm xm

/-- `zNLE_Bisec`, zm_nle_se.c:40-65. -/
def zNLE_Bisec (f : K → K) (x1 x2 tol : K) (iter : Int) (rnd : Nat → K × K) : K × Bool :=
  let n := iterInit iter
  match bracketLoop f tol rnd n 0 x1 x2 with
  | .fail => (0, false)
  | .root1 => (x1, true)
  | .root2 => (x2, true)
  | .found x1 x2 f1 _ => bisecLoop f tol (n+1) x1 x2 f1 0

/-- The loop of `zNLE_RF`, zm_nle_se.c:108-118, with `n` more rounds. -/
def rfLoop (f : K → K) (tol : K) : Nat → K → K → K → K → K → Res (K × Bool)
  | 0, _, _, _, _, xc => .ok (xc, false)
  | n+1, x1, x2, f1, f2, _ =>
    if f2 - f1 = 0 then .ub
    else
      let xc := (f2 * x1 - f1 * x2) / (f2 - f1)
      let fc := f xc
      if |fc| ≤ tol then .ok (xc, true)
      else if f1 * fc < 0 then rfLoop f tol n x1 xc f1 fc xc
      else rfLoop f tol n xc x2 fc f2 xc

/-- `zNLE_RF`, zm_nle_se.c:96-119. -/
def zNLE_RF (f : K → K) (x1 x2 tol : K) (iter : Int) (rnd : Nat → K × K) : Res (K × Bool) :=
  let n := iterInit iter
  match bracketLoop f tol rnd n 0 x1 x2 with
  | .fail => .ok (0, false)
  | .root1 => .ok (x1, true)
  | .root2 => .ok (x2, true)
  | .found x1 x2 f1 f2 => rfLoop f tol n x1 x2 f1 f2 0

/-- The second loop of `zNLE_Secant`, zm_nle_se.c:85-92, with `n` more rounds. -/
def secantLoop (f : K → K) (tol : K) : Nat → K → K → K → K → K → Res (K × Bool)
  | 0, _, _, _, _, xc => .ok (xc, false)
  | n+1, x1, x2, f1, f2, _ =>
    if f2 - f1 = 0 then .ub
    else
      let xc := (f2 * x1 - f1 * x2) / (f2 - f1)
      let fc := f xc
      if |fc| ≤ tol then .ok (xc, true)
      else secantLoop f tol n x2 xc f2 fc xc

/-- The first loop of `zNLE_Secant`, zm_nle_se.c:76-84; `count` rounds are done and `k` may follow. -/
def secantStart (f : K → K) (tol : K) (iter : Nat) (rnd : Nat → K) : Nat → Nat → K → K → Res (K × Bool)
  | k, count, x1, x2 =>
    if |f x1| ≤ tol then .ok (x1, true)
    else if |f x2| ≤ tol then .ok (x2, true)
    else if ¬ |f x1 - f x2| ≤ tol then secantLoop f tol (iter - count) x1 x2 (f x1) (f x2) 0
    else match k with
      | 0 => .ok (0, false)
      | k+1 => secantStart f tol iter rnd k (count+1) (x1 + rnd count) x2

/-- `zNLE_Secant`, zm_nle_se.c:69-93. -/
def zNLE_Secant (f : K → K) (x1 x2 tol : K) (iter : Int) (rnd : Nat → K) : Res (K × Bool) :=
  secantStart f tol (iterInit iter) rnd (iterInit iter) 0 x1 x2

/-- State of `zNLE_VDB`. -/
structure VDB (K : Type*) where
  x1 : K
  x2 : K
  x3 : K
  f1 : K
  f2 : K
  f3 : K

/-- The replacement and the exchange at the beginning of a round, zm_nle_se.c:139-147 (`dx1` and `dx2` are overwritten by line 149). -/
def vdbOrder (s : VDB K) : VDB K :=
  let s := if s.f2 * s.f3 > 0 then { s with x3 := s.x1, f3 := s.f1 } else s
  if |s.f3| < |s.f2| then { x1 := s.x2, x2 := s.x3, x3 := s.x2, f1 := s.f2, f2 := s.f3, f3 := s.f2 } else s

/-- `tol2`, zm_nle_se.c:148, with `ztol` for `zTOL`. -/
def vdbTol (ztol x2 : K) : K := 2 * ztol * |x2| + (1/2) * ztol

/-- The step `dx1`, zm_nle_se.c:149,151-176. -/
def vdbStep (tol2 : K) (s : VDB K) : Res K :=
  let xm := (1/2) * (s.x3 - s.x2)
  if |xm| ≥ tol2 ∧ |s.f1| > |s.f2| then
    if s.f1 = 0 then .ub
    else
      let t := s.f2 / s.f1
      if s.x1 ≠ s.x3 ∧ s.f3 = 0 then .ub
      else
        let p := if s.x1 = s.x3 then 2 * xm * t else t * (t * xm * (s.f1 / s.f3) * (s.f1 / s.f3 - s.f2 / s.f3) - (s.x2 - s.x1) * (s.f2 / s.f3 - 1))
        let q := if s.x1 = s.x3 then 1 - t else (s.f1 / s.f3 - 1) * (s.f2 / s.f3 - 1) * (t - 1)
        let q := if p > 0 then -q else q
        let p := if p > 0 then p else -p
        let min1 := 3 * xm * q - |tol2 * q|
        let min2 := |xm * q|
        if 2 * p < min min1 min2 then (if q = 0 then .ub else .ok (p / q)) else .ok xm
  else .ok xm

/-- The loop of `zNLE_VDB`, zm_nle_se.c:138-186, with `n` more rounds. -/
def vdbLoop (f : K → K) (tol ztol : K) : Nat → VDB K → Res (K × Bool)
  | 0, s => .ok (s.x3, false)
  | n+1, s =>
    let s := vdbOrder s
    let tol2 := vdbTol ztol s.x2
    let xm := (1/2) * (s.x3 - s.x2)
    if |xm| ≤ tol2 ∨ |s.f2| ≤ tol then .ok (s.x2, true)
    else (vdbStep tol2 s).bind fun dx1 =>
      let x2 := if |dx1| > tol2 then s.x2 + dx1 else s.x2 + xm
      vdbLoop f tol ztol n { x1 := s.x2, x2 := x2, x3 := s.x3, f1 := s.f2, f2 := f x2, f3 := s.f3 }

/-- `zNLE_VDB`, zm_nle_se.c:122-187. -/
def zNLE_VDB (f : K → K) (x1 x2 tol ztol : K) (iter : Int) (rnd : Nat → K × K) : Res (K × Bool) :=
  let n := iterInit iter
  match bracketLoop f tol rnd n 0 x1 x2 with
  | .fail => .ok (0, false)
  | .root1 => .ok (x1, true)
  | .root2 => .ok (x2, true)
  | .found x1 x2 f1 f2 => vdbLoop f tol ztol n { x1 := x1, x2 := x2, x3 := x2, f1 := f1, f2 := f2, f3 := f2 }

/-- State of the golden section method. -/
structure GS (K : Type*) where
  xmin : K
  xmax : K
  x1 : K
  x2 : K
  e1 : K
  e2 : K

/-- The loop of `zOptLineGoldenSection`, zm_opt_line.c:25-42, with `n` more rounds; `r` is the ratio `zGOLDENRATIO2`. -/
def goldenLoop (f : K → K) (r tol : K) : Nat → GS K → K × K
  | 0, s => (s.xmin, s.xmax)
  | n+1, s =>
    if zEqual (.fin s.xmin) (.fin s.xmax) tol then (s.xmin, s.xmax)
    else if s.e1 > s.e2 then
      let x2 := s.xmax - r * (s.xmax - s.x1)
      goldenLoop f r tol n { xmin := s.x1, xmax := s.xmax, x1 := s.x2, e1 := s.e2, x2 := x2, e2 := f x2 }
    else if s.e1 < s.e2 then
      let x1 := s.xmin + r * (s.x2 - s.xmin)
      goldenLoop f r tol n { xmin := s.xmin, xmax := s.x2, x2 := s.x1, e2 := s.e1, x1 := x1, e1 := f x1 }
    else
      let x1 := s.x1 + r * (s.x2 - s.x1)
      let x2 := s.x2 - r * (s.x2 - s.x1)
      goldenLoop f r tol n { xmin := s.x1, xmax := s.x2, x1 := x1, e1 := f x1, x2 := x2, e2 := f x2 }

/-- `zOptLineGoldenSection`, zm_opt_line.c:17-46. -/
def zOptLineGoldenSection (f : K → K) (r tol xmin xmax : K) (iter : Int) : K :=
  let x1 := xmin + r * (xmax - xmin)
  let x2 := xmax - r * (xmax - xmin)
  let s := goldenLoop f r tol (iterInit iter) { xmin := xmin, xmax := xmax, x1 := x1, x2 := x2, e1 := f x1, e2 := f x2 }
  (1/2) * (s.1 + s.2)

/-- The loop of `zOptLineTrisection`, zm_opt_line.c:55-68, with `n` more rounds. -/
def trisectLoop (f : K → K) (tol : K) : Nat → K → K → K × K
  | 0, xmin, xmax => (xmin, xmax)
  | n+1, xmin, xmax =>
    if zEqual (.fin xmin) (.fin xmax) tol then (xmin, xmax)
    else
      let x1 := (2 * xmin + xmax) / 3
      let x2 := (xmin + 2 * xmax) / 3
      if f x1 > f x2 then trisectLoop f tol n x1 xmax
      else if f x1 < f x2 then trisectLoop f tol n xmin x2
      else trisectLoop f tol n x1 x2

/-- `zOptLineTrisection`, zm_opt_line.c:49-72. -/
def zOptLineTrisection (f : K → K) (tol xmin xmax : K) (iter : Int) : K :=
  let s := trisectLoop f tol (iterInit iter) xmin xmax
  (1/2) * (s.1 + s.2)

/-- State of Brent's method. -/
structure BR (K : Type*) where
  a : K
  b : K
  v : K
  w : K
  x : K
  ev : K
  ew : K
  ex : K
  d : K
  s : K

/-- The step `d` and the second last step `s`, zm_opt_line.c:89-108; `r` is `zGOLDENRATIO2`. -/
def brentStep (r tol1 : K) (t : BR K) : Res (K × K) :=
  let tol2 := 2 * tol1
  let dm := t.x - (1/2) * (t.a + t.b)
  let da := t.a - t.x
  let db := t.b - t.x
  let g := if dm ≥ 0 then da else db
  if |t.s| ≤ tol1 then .ok (r * g, g)
  else
    let r' := (t.x - t.w) * (t.ex - t.ev)
    let q' := (t.x - t.v) * (t.ex - t.ew)
    let p := (t.x - t.v) * q' - (t.x - t.w) * r'
    let p := if 2 * (q' - r') > 0 then -p else p
    let q := |2 * (q' - r')|
    if (¬ |p| ≤ |(1/2) * q * t.s|) ∨ p ≤ q * da ∨ p ≥ q * db then .ok (r * g, g)
    else if q = 0 then .ub
    else
      let d := p / q
      let u := t.x + d
      .ok (if u - t.a < tol2 ∨ t.b - u < tol2 then (if dm ≤ 0 then tol1 else -tol1) else d, t.d)

/-- The update, zm_opt_line.c:110-124. -/
def brentUpdate (f : K → K) (t : BR K) (d s : K) : BR K :=
  let u := t.x + d
  let eu := f u
  if eu ≤ t.ex then
    { a := if d ≥ 0 then t.x else t.a, b := if d ≥ 0 then t.b else t.x, v := t.w, w := t.x, x := u, ev := t.ew, ew := t.ex, ex := eu, d := d, s := s }
  else
    let a := if d < 0 then u else t.a
    let b := if d < 0 then t.b else u
    if eu ≤ t.ew ∨ t.w = t.x then { t with a := a, b := b, v := t.w, w := u, ev := t.ew, ew := eu, d := d, s := s }
    else if eu ≤ t.ev ∨ t.v = t.x ∨ t.v = t.w then { t with a := a, b := b, v := u, ev := eu, d := d, s := s }
    else { t with a := a, b := b, d := d, s := s }

/-- The loop of `zOptLineBrent`, zm_opt_line.c:85-127, with `n` more rounds; `eps` is `Z_OPT_EPS`. -/
def brentLoop (f : K → K) (r eps ztol : K) : Nat → BR K → Res K
  | 0, t => .ok t.x
  | n+1, t =>
    let tol1 := eps * |t.x| + ztol
    let tol2 := 2 * tol1
    let dm := t.x - (1/2) * (t.a + t.b)
    if |dm| ≤ tol2 - (1/2) * (t.b - t.a) then .ok t.x
    else (brentStep r tol1 t).bind fun ds => brentLoop f r eps ztol n (brentUpdate f t ds.1 ds.2)

/-- `zOptLineBrent`, zm_opt_line.c:75-128. -/
def zOptLineBrent (f : K → K) (r eps ztol a b : K) (iter : Int) : Res K :=
  let x := (1/2) * (a + b)
  brentLoop f r eps ztol (iterInit iter + 1) { a := a, b := b, v := x, w := x, x := x, ev := f x, ew := f x, ex := f x, d := 0, s := 0 }

end
end Zm.OneD
