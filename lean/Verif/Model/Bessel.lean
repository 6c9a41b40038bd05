import Verif.Model.BesselTab
import Mathlib.Analysis.SpecialFunctions.Trigonometric.Basic
import Mathlib.Analysis.SpecialFunctions.Log.Basic
import Mathlib.Analysis.SpecialFunctions.Sqrt

/-!
# Model of the Bessel functions of integer order: zm_sf_bessel.c

`double` is ℝ and `zTOL` is the parameter `tol`.  Outcomes: `ok` a number, `fail` NaN, `ub` a read outside of a table or a division by zero.
Arguments are numbers: with NaN the functions of order 0 and 1 convert NaN to an integer, which is undefined.
-/

namespace Zm.Bessel
open Zm

/-- An element of a table; the index may be anything. -/
noncomputable def rd (tab : List ℚ) (i : Int) : Res ℝ := if 0 ≤ i ∧ i < tab.length then .ok ((tab.getD i.toNat 0 : ℚ) : ℝ) else .ub

/-- `_zBesselRec`, zm_sf_bessel.c:17-27, of `tab + off`. -/
noncomputable def brec (tab : List ℚ) (off : Int) (dim : Nat) (x : ℝ) : Res ℝ :=
  (rd tab off).bind fun c0 => forUpM 1 dim (fun i ret => (rd tab (off + i)).bind fun c => .ok (ret * x + c)) c0

/-- The conversion of `double` to `int`: towards zero. -/
noncomputable def toInt (t : ℝ) : Int := if 0 ≤ t then ⌊t⌋ else ⌈t⌉

/-- The constant π/4 of the source, zm_sf_bessel.c:159. -/
noncomputable def quarterPi : ℝ := 78539816339744830962 / 100000000000000000000

/-- `zBesselJ0`, zm_sf_bessel.c:30-160. -/
noncomputable def zBesselJ0 (x : ℝ) : Res ℝ :=
  let x := |x|
  if x < 1 then brec tJ0a 0 8 (x * x)
  else if x < 17 / 2 then
    let t := x * x * (1 / 16)
    let k := toInt t
    brec tJ0b (k * 13) 13 (t - k - 1 / 2)
  else if x < 25 / 2 then
    let k := toInt x
    brec tJ0c ((k - 8) * 14) 14 (x - k - 1 / 2)
  else
    let v := 24 / x
    let t := v * v
    let k := toInt t * 13
    (brec tJ0d k 7 t).bind fun p => (brec tJ0d (k + 7) 6 t).bind fun q => .ok (p * Real.sqrt v * Real.cos (x + q * v - quarterPi))

/-- `zBesselJ1`, zm_sf_bessel.c:279-292, for `x ≥ 0`. -/
noncomputable def besselJ1 (x : ℝ) : Res ℝ :=
  if x < 1 then (brec tJ1a 0 8 (x * x)).bind fun p => .ok (p * x)
  else if x < 17 / 2 then
    let t := x * x * (1 / 16)
    let k := toInt t
    (brec tJ1b (k * 13) 13 (t - k - 1 / 2)).bind fun p => .ok (p * x)
  else if x < 25 / 2 then
    let k := toInt x
    brec tJ1c ((k - 8) * 14) 14 (x - k - 1 / 2)
  else
    let v := 24 / x
    let t := v * v
    let k := toInt t * 13
    (brec tJ1d k 7 t).bind fun p => (brec tJ1d (k + 7) 6 t).bind fun q => .ok (p * Real.sqrt v * Real.sin (x + q * v - quarterPi))

/-- `zBesselJ1`, zm_sf_bessel.c:163-293 (it calls itself with `-x`, which is positive, at most once). -/
noncomputable def zBesselJ1 (x : ℝ) : Res ℝ := if x < 0 then (besselJ1 (-x)).bind fun y => .ok (-y) else besselJ1 x

/-- The recurrence upwards, zm_sf_bessel.c:313-317, 729-733, 1385-1389: for( i=1; i<n; i++ ) with sign -1 or 1; `ax` is 2/x. -/
def upward {K : Type*} [Field K] (sg ax : K) (n : Nat) (y0 y1 : K) : K × K :=
  forUp 1 n (fun i (s : K × K) => (s.2, i * ax * s.2 + sg * s.1)) (y0, y1)

/-- The variables of the recurrence downwards, zm_sf_bessel.c:320-331. -/
structure Down (K : Type*) where
  j0 : K
  j1 : K
  s : K
  sw : Bool
  ret : K

/-- The recurrence downwards of `zBesselJ`, zm_sf_bessel.c:320-331, from `m`. -/
def downJ {K : Type*} [Field K] (ax : K) (n m : Nat) : Down K :=
  forDown 1 (m + 1) (fun i (d : Down K) =>
    let j := i * ax * d.j1 - d.j0
    { j0 := d.j1, j1 := j, s := if d.sw then d.s + j else d.s, sw := !d.sw, ret := if i = n then d.j1 else d.ret }) ⟨0, 1, 0, false, 0⟩

/-- `zBesselJ`, zm_sf_bessel.c:296-336.  The conversion of the square root of 40n to an integer is `Nat.sqrt`. -/
noncomputable def zBesselJ (tol : ℝ) (n : Int) (x : ℝ) : Res ℝ :=
  if n < 0 then .fail
  else if n = 0 then zBesselJ0 x
  else if n = 1 then zBesselJ1 x
  else if |x| < tol then .ok 0
  else
    let n := n.toNat
    let sign := fun y : ℝ => if x < 0 ∧ n % 2 = 1 then -y else y
    if |x| = 0 then .ub
    else if |x| > n then
      (zBesselJ0 |x|).bind fun j0 => (zBesselJ1 |x|).bind fun j1 => .ok (sign (upward (-1) (2 / |x|) n j0 j1).2)
    else
      let d := downJ (2 / |x|) n (2 * ((n + Nat.sqrt (40 * n)) / 2))
      if 2 * d.s - d.j1 = 0 then .ub else .ok (sign (d.ret / (2 * d.s - d.j1)))

/-- `zBesselY0`, zm_sf_bessel.c:339-524. -/
noncomputable def zBesselY0 (x : ℝ) : Res ℝ :=
  if x ≤ 0 then .fail
  else if x < 85 / 100 then
    let t := x * x
    (brec tY0a 8 8 t).bind fun p => (brec tY0a 0 8 t).bind fun q => .ok (p + q * Real.log x)
  else if x < 9 / 2 then
    let t := x - 4 / x
    let k := toInt (t + 4)
    brec tY0b (k * 14) 14 (t - k + 7 / 2)
  else if x < 25 / 2 then
    let k := toInt x
    brec tY0c ((k - 4) * 14) 14 (x - k - 1 / 2)
  else
    let v := 24 / x
    let t := v * v
    let k := toInt t * 13
    (brec tY0d k 7 t).bind fun p => (brec tY0d (k + 7) 6 t).bind fun q => .ok (p * Real.sqrt v * Real.sin (x + q * v - quarterPi))

/-- `zBesselY1`, zm_sf_bessel.c:527-712. -/
noncomputable def zBesselY1 (x : ℝ) : Res ℝ :=
  if x ≤ 0 then .fail
  else if x < 85 / 100 then
    let t := x * x
    (brec tY1a 8 8 t).bind fun p => (brec tY1a 0 8 t).bind fun q => .ok (p / x + q * x * Real.log x)
  else if x < 415 / 100 then
    let v := 4 / x
    let t := x - v
    let k := toInt (t + 4)
    (brec tY1b (k * 14) 14 (t - k + 7 / 2)).bind fun p => .ok (p * v)
  else if x < 25 / 2 then
    let k := toInt x
    brec tY1c ((k - 4) * 14) 14 (x - k - 1 / 2)
  else
    let v := 24 / x
    let t := v * v
    let k := toInt t * 13
    (brec tY1d k 7 t).bind fun p => (brec tY1d (k + 7) 6 t).bind fun q => .ok (-p * Real.sqrt v * Real.cos (x + q * v - quarterPi))

/-- `zBesselY`, zm_sf_bessel.c:715-735. -/
noncomputable def zBesselY (n : Int) (x : ℝ) : Res ℝ :=
  if n < 0 then .fail
  else if n = 0 then zBesselY0 x
  else if n = 1 then zBesselY1 x
  else (zBesselY0 x).bind fun y0 => (zBesselY1 x).bind fun y1 => .ok (upward (-1) (2 / x) n.toNat y0 y1).2

/-- `zBesselI0`, zm_sf_bessel.c:738-854. -/
noncomputable def zBesselI0 (x : ℝ) : Res ℝ :=
  let x := |x|
  if x < 17 / 2 then
    let t := x * x * (1 / 16)
    let k := toInt t
    brec tI0a (k * 13) 13 t
  else if x < 25 / 2 then
    let k := toInt x
    brec tI0b ((k - 8) * 14) 14 (x - k)
  else
    let t := 60 / x
    let k := toInt t * 9
    (brec tI0c k 9 t).bind fun p => .ok (p * Real.sqrt t * Real.exp x)

/-- `zBesselI1`, zm_sf_bessel.c:958-967, for `x ≥ 0`. -/
noncomputable def besselI1 (x : ℝ) : Res ℝ :=
  if x < 17 / 2 then
    let t := x * x * (1 / 16)
    let k := toInt t * 12
    (brec tI1a k 12 t).bind fun p => .ok (p * x)
  else if x < 25 / 2 then
    let k := toInt x
    brec tI1b ((k - 8) * 14) 14 (x - k)
  else
    let t := 60 / x
    let k := toInt t * 9
    (brec tI1c k 9 t).bind fun p => .ok (p * Real.sqrt t * Real.exp x)

/-- `zBesselI1`, zm_sf_bessel.c:857-968. -/
noncomputable def zBesselI1 (x : ℝ) : Res ℝ := if x < 0 then (besselI1 (-x)).bind fun y => .ok (-y) else besselI1 x

/-- The recurrence downwards of `zBesselI`, zm_sf_bessel.c:984-992, from `m`: `i0`, `i1` and `ret`. -/
def downI {K : Type*} [Field K] (ax : K) (n m : Nat) : K × K × K :=
  forDown 1 (m + 1) (fun i (d : K × K × K) => (d.2.1, i * ax * d.2.1 + d.1, if i = n then d.2.1 else d.2.2)) (0, 1, 0)

/-- `zBesselI`, zm_sf_bessel.c:971-995. -/
noncomputable def zBesselI (tol : ℝ) (n : Int) (x : ℝ) : Res ℝ :=
  if n < 0 then .fail
  else if n = 0 then zBesselI0 x
  else if n = 1 then zBesselI1 x
  else if |x| < tol then .ok 0
  else
    let n := n.toNat
    let sign := fun y : ℝ => if x < 0 ∧ n % 2 = 1 then -y else y
    if |x| = 0 then .ub
    else
      let d := downI (2 / |x|) n (2 * (n + Nat.sqrt (40 * n)))
      if d.2.1 = 0 then .ub else (zBesselI0 x).bind fun i0 => .ok (sign (d.2.2 * (i0 / d.2.1)))

/-- `zBesselK0`, zm_sf_bessel.c:998-1182. -/
noncomputable def zBesselK0 (x : ℝ) : Res ℝ :=
  if x ≤ 0 then .fail
  else if x < 86 / 100 then
    let t := x * x
    (brec tK0a 8 8 t).bind fun p => (brec tK0a 0 8 t).bind fun q => .ok (p - q * Real.log x)
  else if x < 415 / 100 then
    let t := x - 5 / x
    let k := toInt (t + 5)
    brec tK0b (k * 14) 14 (k - t - 4)
  else if x < 25 / 2 then
    let k := toInt x
    brec tK0c ((k - 4) * 15) 15 (k - x + 1)
  else
    let t := 60 / x
    let k := toInt t * 8
    (brec tK0d k 8 t).bind fun p => .ok (p * Real.sqrt t * Real.exp (-x))

/-- `zBesselK1`, zm_sf_bessel.c:1185-1368.  The argument is not examined: for a negative one the logarithm is NaN, and for zero the product of zero and an infinity is,
so that the first branch gives NaN, rendered as such. -/
noncomputable def zBesselK1 (x : ℝ) : Res ℝ :=
  if x < 80 / 100 then
    let t := x * x
    (brec tK1a 8 8 t).bind fun p => (brec tK1a 0 8 t).bind fun q => if x ≤ 0 then .fail else .ok (p / x + q * x * Real.log x)
  else if x < 55 / 10 then
    let v := 3 / x
    let t := x - v
    let k := toInt (t + 3)
    (brec tK1b (k * 15) 15 (k - t - 2)).bind fun p => .ok (p * v)
  else if x < 25 / 2 then
    let k := toInt x
    brec tK1c ((k - 5) * 15) 15 (k - x + 1)
  else
    let t := 60 / x
    let k := toInt t * 8
    (brec tK1d k 8 t).bind fun p => .ok (p * Real.sqrt t * Real.exp (-x))

/-- `zBesselK`, zm_sf_bessel.c:1371-1391. -/
noncomputable def zBesselK (n : Int) (x : ℝ) : Res ℝ :=
  if n < 0 then .fail
  else if n = 0 then zBesselK0 x
  else if n = 1 then zBesselK1 x
  else (zBesselK0 x).bind fun k0 => (zBesselK1 x).bind fun k1 => .ok (upward 1 (2 / x) n.toNat k0 k1).2

end Zm.Bessel
