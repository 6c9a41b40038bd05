import Verif.Base.Fn
import Verif.Model.Misc
import Mathlib.Algebra.Module.Basic
import Mathlib.Algebra.Field.Basic
import Mathlib.Algebra.Order.Field.Basic

/-! # Ordinary differential equations and numerical integrators

Model of `src/zm_ode*.c` and `src/zm_intg.c`.  The state of an equation is an element of any vector space `V` over an exact field, and the
right-hand side any function of time and state.  `cat` and `sub` are the default functions `_zODECatDefault` and `_zODESubDefault`
(zm_ode.c:10-19).  The solution of a system of algebraic equations by `zNLESolve` is not modelled: the equation is, and the unknown is any
root of it. -/

namespace Zm.ODE
open Zm

section
variable {K V : Type*} [Field K] [AddCommGroup V] [Module K V]

/-- `_zODECatDefault`, zm_ode.c:10-13. -/
def cat (x : V) (dt : K) (dx : V) : V := x + dt • dx

/-- `_zODESubDefault`, zm_ode.c:16-19. -/
def sub (x1 x2 : V) : V := x1 - x2

/-! ## Explicit Runge-Kutta methods -/

/-- `zODEUpdateEuler`, zm_ode_euler.c:29-33. -/
def zODEUpdateEuler (f : K → V → V) (t : K) (x : V) (dt : K) : V := cat x dt (f t x)

/-- `zODEUpdateHeun`, zm_ode_heun.c:44-58. -/
def zODEUpdateHeun (f : K → V → V) (t : K) (x : V) (dt : K) : V :=
  let k0 := f t x
  let k1 := f (t + dt/3) (cat x (dt/3) k0)
  let k2 := f (t + dt*2/3) (cat x (dt*2/3) k1)
  cat (cat x ((1/4)*dt) k0) ((3/4)*dt) k2

/-- `zODEUpdateRK4`, zm_ode_rk4.c:45-67. -/
def zODEUpdateRK4 (f : K → V → V) (t : K) (x : V) (dt : K) : V :=
  let dt1 := dt * (1/2)
  let dt2 := dt / 6
  let dt3 := dt2 * 2
  let k0 := f t x
  let k1 := f (t + dt1) (cat x dt1 k0)
  let k2 := f (t + dt1) (cat x dt1 k1)
  let k3 := f (t + dt) (cat x dt k2)
  cat (cat (cat (cat x dt2 k0) dt3 k1) dt3 k2) dt2 k3

/-- `zODEUpdateRKG`, zm_ode_rkg.c:43-76; `r2` is `sqrt(2)`. -/
def zODEUpdateRKG (r2 : K) (f : K → V → V) (t : K) (x : V) (dt : K) : V :=
  let c1 := 1 - (1/2) * r2
  let c2 := 1 + (1/2) * r2
  let dt1 := (1/2) * dt
  let dt2 := c1 * dt
  let dt3 := c2 * dt
  let u := f t x
  let x := cat x dt1 u
  let v := u
  let u := f (t + dt1) x
  let x := cat x dt2 u
  let x := cat x (-dt2) v
  let v := ((1/2) * (3 * r2 - 4)) • v
  let v := cat v (2 * c1) u
  let u := f (t + dt1) x
  let x := cat x dt3 u
  let x := cat x (-dt3) v
  let v := (-(1/2) * (3 * r2 + 4)) • v
  let v := cat v (2 * c2) u
  let u := f (t + dt) x
  let x := cat x (dt/6) u
  cat x (-dt/3) v

/-- The argument of stage `i`, zm_ode_erk.c:68-70 (lines of the file are those from its beginning); `l` counts the coefficients used. -/
def erkArg (a : Nat → K) (dt : K) (k : Nat → V) (x : V) (i l : Nat) : V × Nat :=
  forUp 0 i (fun j (s : V × Nat) => (cat s.1 (a s.2 * dt) (k j), s.2 + 1)) (x, l)

/-- The stages `k`, zm_ode_erk.c:66-72; `n` is the number of stages. -/
def erkStages (f : K → V → V) (n : Nat) (a c : Nat → K) (t : K) (x : V) (dt : K) : Nat → V :=
  (forUp 1 n (fun i (s : (Nat → V) × Nat) =>
    (set1 s.1 i (f (t + c (i-1) * dt) (erkArg a dt s.1 x i s.2).1), (erkArg a dt s.1 x i s.2).2)) (set1 (fun _ => 0) 0 (f t x), 0)).1

/-- The combination of the stages with weights `b`, zm_ode_erk.c:73-78. -/
def erkSum (n : Nat) (b : Nat → K) (k : Nat → V) (x : V) (dt : K) : V :=
  forUp 0 n (fun i s => cat s (b i * dt) (k i)) x

/-- Coefficients of an embedded Runge-Kutta method. -/
structure Tab (K : Type*) where
  n : Nat
  a : Nat → K
  bc : Nat → K
  bf : Nat → K
  c : Nat → K

/-- The fine estimate of one step. -/
def erkFine (T : Tab K) (f : K → V → V) (t : K) (x : V) (dt : K) : V := erkSum T.n T.bf (erkStages f T.n T.a T.c t x dt) x dt

/-- The coarse estimate of one step. -/
def erkCoarse (T : Tab K) (f : K → V → V) (t : K) (x : V) (dt : K) : V := erkSum T.n T.bc (erkStages f T.n T.a T.c t x dt) x dt

/-- `_zODEUpdateERK`, zm_ode_erk.c:60-86; `dist` is `zVecDist`, `tol` and `dtol` are `ZODE_ERK_TOL` and `ZODE_ERK_DT_TOL`.  The recursion is
cut off after `fuel` levels. -/
def zODEUpdateERK [LinearOrder K] (T : Tab K) (dist : V → V → K) (tol dtol : K) (f : K → V → V) : Nat → K → V → K → Res V
  | 0, _, _, _ => .ub
  | fuel+1, t, x, dt =>
    if dt > dtol ∧ dist (erkCoarse T f t x dt) (erkFine T f t x dt) > tol then
      (zODEUpdateERK T dist tol dtol f fuel t x (dt * (1/2))).bind fun x =>
        zODEUpdateERK T dist tol dtol f fuel (t + dt * (1/2)) x (dt * (1/2))
    else .ok (erkFine T f t x dt)

/-- The elements of a list of numbers. -/
def tbl (l : List K) : Nat → K := fun i => l.getD i 0

/-- The coefficients of `zODEUpdateRKF45`, zm_ode_erk.c:102-111. -/
def rkf45 : Tab K where
  n := 6
  a := tbl [1/4, 3/32, 9/32, 1932/2197, -7200/2197, 7296/2197, 439/216, -8, 3680/513, -845/4104, -8/27, 2, -3544/2565, 1859/4104, -11/40]
  bc := tbl [25/216, 0, 1408/2565, 2197/4104, -1/5, 0]
  bf := tbl [16/135, 0, 6656/12825, 28561/56430, -9/50, 2/55]
  c := tbl [1/4, 3/8, 12/13, 1, 1/2]

/-- The coefficients of `zODEUpdateCK45`, zm_ode_erk.c:130-139. -/
def ck45 : Tab K where
  n := 6
  a := tbl [1/5, 3/40, 9/40, 3/10, -9/10, 6/5, -11/54, 5/2, -70/27, 35/27, 1631/55296, 175/512, 575/13824, 44275/110592, 253/4096]
  bc := tbl [37/378, 0, 250/621, 125/594, 0, 512/1771]
  bf := tbl [2825/27648, 0, 18575/48384, 13525/55296, 277/14336, 1/4]
  c := tbl [1/5, 3/10, 3/5, 1, 7/8]

/-- The coefficients of `zODEUpdateDP45`, zm_ode_erk.c:158-170. -/
def dp45 : Tab K where
  n := 7
  a := tbl [1/5, 3/40, 9/40, 44/45, -56/15, 32/9, 19372/6561, -25360/2187, 64448/6561, -212/729,
    9017/3168, -355/33, 46732/5247, 49/176, -5103/18656, 35/384, 0, 500/1113, 125/192, -2187/6784, 11/84]
  bc := tbl [5179/57600, 0, 7571/16695, 393/640, -92097/339200, 187/2100, 1/40]
  bf := tbl [35/384, 0, 500/1113, 125/192, -2187/6784, 11/84, 0]
  c := tbl [1/5, 3/10, 4/5, 8/9, 1, 1]

/-! ## Deferred correction -/

/-- `zODEUpdateDC`, zm_ode_dc.c:32-51, on top of a one-step method `upd`; `tol` is `ZODE_DC_TOL`.  The recursion is cut off after `fuel`
levels. -/
def zODEUpdateDC [LinearOrder K] (dist : V → V → K) (tol : K) (upd : K → V → K → V) : Nat → K → V → K → Res V
  | 0, _, _, _ => .ub
  | fuel+1, t, x, dt =>
    let x1 := upd t x dt
    let dt := dt * (1/2)
    let x2 := upd (t + dt) (upd t x dt) dt
    if dist x1 x2 > tol then
      (zODEUpdateDC dist tol upd fuel t x dt).bind fun x => zODEUpdateDC dist tol upd fuel (t + dt) x dt
    else .ok (sub ((2 : K) • x2) x1)

/-! ## Adams's methods -/

/-- The coefficients `g`, zm_ode_adams.c:50-54, for `g0`. -/
def adamsG (step : Nat) (g0 : K) : Nat → K :=
  forUp 1 step (fun i g => forUp 1 (i+1) (fun j g => set1 g i (g i - g (i-j) / ((j : K) + 1))) (set1 g i g0)) (set1 (fun _ => 0) 0 1)

/-- `_zODESetWeightAdams`, zm_ode_adams.c:41-61. -/
def adamsWeight (step : Nat) (g0 : K) (w : Nat → K) : Nat → K :=
  forUp 0 step (fun i w =>
    let w := forUp i step (fun j w => set1 w i (w i + Misc.zCombination (j : Int) (i : Int) * adamsG step g0 j)) w
    if i % 2 = 1 then set1 w i (- w i) else w) w

/-- A ring of states (ZEDA). -/
structure Ring (V : Type*) where
  size : Nat
  head : Nat
  buf : Nat → V

/-- `zRingElem` (ZEDA). -/
def Ring.elem (r : Ring V) (i : Nat) : V := r.buf ((r.head + i) % r.size)

/-- `zRingDecHead` (ZEDA). -/
def Ring.dec (r : Ring V) : Ring V := { r with head := (r.head + r.size - 1) % r.size }

/-- `zRingIncHead` (ZEDA). -/
def Ring.inc (r : Ring V) : Ring V := { r with head := (r.head + 1) % r.size }

/-- Assignment to the element at the head. -/
def Ring.setHead (r : Ring V) (x : V) : Ring V := { r with buf := set1 r.buf (r.head % r.size) x }

/-- `zVecRingLinearSum`, zm_vec_ring.c:64-68, with `n` weights. -/
def Ring.linearSum (n : Nat) (w : Nat → K) (r : Ring V) : V := forUp 0 n (fun i s => cat s (w i) (r.elem i)) 0

/-- `_zODEUpdateAdams`, zm_ode_adams.c:64-72. -/
def adamsStep (n : Nat) (f : K → V → V) (t : K) (x xorg : V) (w : Nat → K) (dt : K) (r : Ring V) : V × Ring V :=
  let r := r.setHead (f t xorg)
  (cat x dt (r.linearSum n w), r)

/-- The loop of the corrector, zm_ode_adams.c:117-121, with `m` more rounds; `near` is the test on the distance, and the result is `xnew`. -/
def adamsCorrect (near : V → V → Bool) (n : Nat) (f : K → V → V) (t2 : K) (x : V) (wm : Nat → K) (dt : K) : Nat → V → V → Ring V → V × Ring V
  | 0, _, xnew, r => (xnew, r)
  | m+1, xold, _, r =>
    let s := adamsStep n f t2 x xold wm dt r
    if near xold s.1 then s else adamsCorrect near n f t2 x wm dt m s.1 xold s.2

/-- `zODEUpdateAdams`, zm_ode_adams.c:100-127, with the weights of `zODECreateAdams`, zm_ode_adams.c:75-84; `x2` is what the working memory
holds. -/
def zODEUpdateAdams [LinearOrder K] (near : V → V → Bool) (step : Nat) (f : K → V → V) (t : K) (x : V) (dt : K) (x2 : V) (r : Ring V) : V × Ring V :=
  let wb := adamsWeight step (1 : K) (fun _ => 0)
  let wm := adamsWeight step (0 : K) (fun _ => 0)
  let r := r.dec
  let s := adamsStep step f t x x wb dt r
  let r := s.2.dec
  let s := adamsCorrect near step f (t + dt) x wm dt 10000 s.1 x2 r
  (s.1, s.2.inc)

/-! ## Gear's method -/

/-- The coefficients `a`, zm_ode_gear.c:41-48, for the number `step` of steps. -/
def gearA (step : Nat) : Nat → K :=
  match step with
  | 1 => tbl [-1, 0, 0, 0, 0, 0]
  | 2 => tbl [-4/3, 1/3, 0, 0, 0, 0]
  | 3 => tbl [-18/11, 9/11, -2/11, 0, 0, 0]
  | 4 => tbl [-48/25, 36/25, -16/25, 3/25, 0, 0]
  | 5 => tbl [-300/137, 300/137, -200/137, 75/137, -12/137, 0]
  | _ => tbl [-120/49, 150/49, -400/147, 75/49, -24/49, 10/147]

/-- The coefficient `b`, zm_ode_gear.c:49-51. -/
def gearB (step : Nat) : K := tbl [1, 2/3, 6/11, 12/25, 60/137, 20/49] (step - 1)

/-- The number of steps used, zm_ode_gear.c:57-63. -/
def gearStep (step : Int) : Nat := if step < 1 then 1 else if step > 6 then 6 else step.toNat

/-- `_zODE_Gear_Func`, zm_ode_gear.c:21-35. -/
def gearFunc (step : Nat) (f : K → V → V) (t dt : K) (r : Ring V) (x : V) : V :=
  let y := forUp 0 step (fun i y => cat y (gearA step i : K) (r.elem i)) x
  cat y (-(gearB step) * dt) (f (t + dt) x)

/-- The history seen by the equation of `zODEUpdateGear`, zm_ode_gear.c:106. -/
def gearHist (r : Ring V) (x : V) : Ring V := r.setHead x

/-- `zODEUpdateGear`, zm_ode_gear.c:98-110, when `zNLESolve` has found `xn`. -/
def zODEUpdateGear (r : Ring V) (x xn : V) : V × Ring V := (xn, (gearHist r x).dec)

/-! ## Implicit Runge-Kutta methods -/

/-- `_zODE_BEuler_Func`, zm_ode_beuler.c:22-30, for the state `x0` and the step `dt` kept in the working memory. -/
def beulerFunc (f : K → V → V) (t1 dt : K) (x0 x : V) : V := cat (sub x x0) (-dt) (f t1 x)

/-- The equation of `zODEUpdateBEuler`, zm_ode_beuler.c:64-75. -/
def zODEBEulerEq (f : K → V → V) (t : K) (x0 : V) (dt : K) (x : V) : V := beulerFunc f (t + dt) dt x0 x

/-- The equation of `zODEUpdateTR`, zm_ode_beuler.c:80-93. -/
def zODETREq (f : K → V → V) (t : K) (x0 : V) (dt : K) (x : V) : V :=
  beulerFunc f (t + dt) ((1/2) * dt) (cat x0 ((1/2) * dt) (f t x0)) x

/-- `_zODE_BK4_Func`, zm_ode_bk4.c:22-44. -/
def bk4Func (f : K → V → V) (t1 t2 a11 a12 a21 a22 : K) (x k1 k2 : V) : V × V :=
  (sub k1 (f t1 (cat (cat x a11 k1) a12 k2)), sub k2 (f t2 (cat (cat x a21 k1) a22 k2)))

/-- The equation of `zODEUpdateGauss`, zm_ode_bk4.c:88-93; `s3` is `sqrt(3)`. -/
def zODEGaussEq (s3 : K) (f : K → V → V) (t : K) (x : V) (dt : K) (k1 k2 : V) : V × V :=
  let c := s3 / 6
  bk4Func f (t + (1/2 + c) * dt) (t + (1/2 - c) * dt) ((1/4) * dt) ((1/4 + c) * dt) ((1/4 - c) * dt) ((1/4) * dt) x k1 k2

/-- The result of `zODEUpdateGauss`, zm_ode_bk4.c:94,100-102. -/
def zODEGaussEnd (x : V) (dt : K) (k1 k2 : V) : V := cat (cat x (dt * (1/2)) k1) (dt * (1/2)) k2

/-- The equation of `zODEUpdateRadau`, zm_ode_bk4.c:111-115. -/
def zODERadauEq (f : K → V → V) (t : K) (x : V) (dt : K) (k1 k2 : V) : V × V :=
  bk4Func f (t + dt/3) (t + dt) (-5 * (-1/12 * dt)) (-1/12 * dt) (3 * ((1/4) * dt)) ((1/4) * dt) x k1 k2

/-- The result of `zODEUpdateRadau`, zm_ode_bk4.c:121-123. -/
def zODERadauEnd (x : V) (dt : K) (k1 k2 : V) : V := cat (cat x (3 * ((1/4) * dt)) k1) ((1/4) * dt) k2

/-! ## Second-order equations -/

/-- `_zODE2RegularFunc`, zm_ode2.c:45-57: the state is the pair of displacement and velocity. -/
def ode2Func (f : K → V → V → V) (t : K) (y : V × V) : V × V := (y.2, f t y.1 y.2)

/-- `zODE2UpdateRegular`, zm_ode2.c:96-104, on top of a method `upd` for equations of first order. -/
def zODE2UpdateRegular (upd : (K → V × V → V × V) → K → V × V → K → V × V) (f : K → V → V → V) (t : K) (x v : V) (dt : K) : V × V :=
  upd (ode2Func f) t (x, v) dt

/-- `zODE2UpdateSymplectic`, zm_ode2.c:127-132. -/
def zODE2UpdateSymplectic (f : K → V → V → V) (t : K) (x v : V) (dt : K) : V × V :=
  let v := cat v dt (f t x v)
  (cat x dt v, v)

/-- `zODE2UpdateLeapfrog`, zm_ode2.c:165-175: displacement, velocity and the velocity kept from half a step before. -/
def zODE2UpdateLeapfrog (f : K → V → V → V) (t : K) (x v vh : V) (dt : K) : V × V × V :=
  let vh := cat vh dt (f t x v)
  let x := cat x dt vh
  (x, cat vh ((1/2) * dt) (f t x vh), vh)

end

/-! ## Numerical integrators -/

section
variable {K : Type*} [Field K] [DecidableEq K]

/-- `zIntg`, zm_intg.h. -/
structure Intg (K : Type*) where
  s : K
  x0 : K
  dt : K
  x : K

/-- `zIntgInit`, zm_intg.c:12-19. -/
def zIntgInit (s0 x0 : K) : Intg K := { s := s0, x0 := x0, dt := 0, x := 0 }

/-- `zIntgRect`, zm_intg.c:24-29 (the value returned is the member `s`). -/
def zIntgRect (g : Intg K) (x dt : K) : Intg K := { g with s := g.s + g.x0 * dt, x0 := x }

/-- `zIntgTR`, zm_intg.c:34-39. -/
def zIntgTR (g : Intg K) (x dt : K) : Intg K := { g with s := g.s + (1/2) * (g.x0 + x) * dt, x0 := x }

/-- `zIntgQuad`, zm_intg.c:44-62; a zero divisor is `ub`. -/
def zIntgQuad (g : Intg K) (x dt : K) : Res (Intg K) :=
  if g.dt = 0 then .ok (zIntgTR { g with dt := dt, x := g.x0 } x dt)
  else
    let d := dt + g.dt
    if d = 0 then .ub
    else
      let a := dt / (6 * g.dt) + 1/2
      let b := (dt/3 + (1/2) * g.dt) / d
      let c := - (dt * dt) / (6 * g.dt * d)
      .ok { s := g.s + (g.x0 * a + x * b + g.x * c) * dt, x := g.x0, dt := dt, x0 := x }

end
end Zm.ODE
