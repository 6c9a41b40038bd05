import Verif.Model.ODE

/-! # Differential equations with functions of the caller

Model of `src/zm_ode*.c` with the functions a caller hands over: the right-hand side `f`, the function `cat` that moves a state along a
derivative, the function `sub` that tells two states apart, and the pointer `util` all of them are called with.  Each of them is any
function of the values of its arguments that may be undefined (`ub`), so that a solver can be blamed for calling it with an argument it was not
meant for.  The vectors of a state, a derivative and a difference are elements of one type `V`, as they all are `zVec` in the source; the
results a function writes into one of its arguments is its value here.  `P` is the type of the pointers. -/

namespace Zm.ODEUser
open ODE (Tab gearA gearB adamsWeight)

section
variable {K V P : Type*} [Field K] [AddCommGroup V] [Module K V]

/-- The functions of `zODE`, zm_ode.h:17-26. -/
structure Solver (K V P : Type*) where
  f : K → V → P → Res V
  cat : V → K → V → P → Res V
  sub : V → V → P → Res V

/-- `zODEAssign` with `zODEAssignFunc`, zm_ode.c:22-26: a function not given is the default one, zm_ode.c:10-19. -/
def assign (f : K → V → P → Res V) (catf : Option (V → K → V → P → Res V)) (subf : Option (V → V → P → Res V)) : Solver K V P where
  f := f
  cat := catf.getD (fun x dt dx _ => .ok (x + dt • dx))
  sub := subf.getD (fun x1 x2 _ => .ok (x1 - x2))

/-! ## Explicit methods -/

/-- `zODEUpdateEuler`, zm_ode_euler.c:29-33. -/
def zODEUpdateEuler (o : Solver K V P) (t : K) (x : V) (dt : K) (util : P) : Res V :=
  (o.f t x util).bind fun k => o.cat x dt k util

/-- `zODEUpdateHeun`, zm_ode_heun.c:44-58. -/
def zODEUpdateHeun (o : Solver K V P) (t : K) (x : V) (dt : K) (util : P) : Res V :=
  (o.f t x util).bind fun k0 =>
  (o.cat x (dt/3) k0 util).bind fun y =>
  (o.f (t + dt/3) y util).bind fun k1 =>
  (o.cat x (dt*2/3) k1 util).bind fun y =>
  (o.f (t + dt*2/3) y util).bind fun k2 =>
  (o.cat x ((1/4)*dt) k0 util).bind fun x =>
  o.cat x ((3/4)*dt) k2 util

/-- `zODEUpdateRK4`, zm_ode_rk4.c:45-67. -/
def zODEUpdateRK4 (o : Solver K V P) (t : K) (x : V) (dt : K) (util : P) : Res V :=
  let dt1 := dt * (1/2)
  let dt2 := dt / 6
  let dt3 := dt2 * 2
  (o.f t x util).bind fun k0 =>
  (o.cat x dt1 k0 util).bind fun y =>
  (o.f (t + dt1) y util).bind fun k1 =>
  (o.cat x dt1 k1 util).bind fun y =>
  (o.f (t + dt1) y util).bind fun k2 =>
  (o.cat x dt k2 util).bind fun y =>
  (o.f (t + dt) y util).bind fun k3 =>
  (o.cat x dt2 k0 util).bind fun x =>
  (o.cat x dt3 k1 util).bind fun x =>
  (o.cat x dt3 k2 util).bind fun x =>
  o.cat x dt2 k3 util

/-- `zODEUpdateRKG`, zm_ode_rkg.c:43-76; `r2` is `sqrt(2)`.  The vector `v` is kept with `zVecMulNCDRC` and `zVecCatNCDRC`, not with `cat`. -/
def zODEUpdateRKG (r2 : K) (o : Solver K V P) (t : K) (x : V) (dt : K) (util : P) : Res V :=
  let c1 := 1 - (1/2) * r2
  let c2 := 1 + (1/2) * r2
  let dt1 := (1/2) * dt
  let dt2 := c1 * dt
  let dt3 := c2 * dt
  (o.f t x util).bind fun u =>
  (o.cat x dt1 u util).bind fun x =>
  let v := u
  (o.f (t + dt1) x util).bind fun u =>
  (o.cat x dt2 u util).bind fun x =>
  (o.cat x (-dt2) v util).bind fun x =>
  let v := ((1/2) * (3 * r2 - 4)) • v + (2 * c1) • u
  (o.f (t + dt1) x util).bind fun u =>
  (o.cat x dt3 u util).bind fun x =>
  (o.cat x (-dt3) v util).bind fun x =>
  let v := (-(1/2) * (3 * r2 + 4)) • v + (2 * c2) • u
  (o.f (t + dt) x util).bind fun u =>
  (o.cat x (dt/6) u util).bind fun x =>
  o.cat x (-dt/3) v util

/-- The argument of stage `i`, zm_ode_erk.c:68-70; `l` counts the coefficients used. -/
def erkArg (o : Solver K V P) (a : Nat → K) (dt : K) (k : Nat → V) (x : V) (i l : Nat) (util : P) : Res (V × Nat) :=
  forUpM 0 i (fun j (s : V × Nat) => (o.cat s.1 (a s.2 * dt) (k j) util).bind fun y => .ok (y, s.2 + 1)) (x, l)

/-- The stages `k`, zm_ode_erk.c:66-72; `n` is the number of stages. -/
def erkStages (o : Solver K V P) (n : Nat) (a c : Nat → K) (t : K) (x : V) (dt : K) (util : P) : Res ((Nat → V) × Nat) :=
  (o.f t x util).bind fun k0 =>
  forUpM 1 n (fun i (s : (Nat → V) × Nat) =>
    (erkArg o a dt s.1 x i s.2 util).bind fun y =>
    (o.f (t + c (i-1) * dt) y.1 util).bind fun k => .ok (set1 s.1 i k, y.2)) (set1 (fun _ => 0) 0 k0, 0)

/-- The two estimates `_xc` and `_xf`, zm_ode_erk.c:73-78. -/
def erkSums (o : Solver K V P) (n : Nat) (bc bf : Nat → K) (k : Nat → V) (x : V) (dt : K) (util : P) : Res (V × V) :=
  forUpM 0 n (fun i (s : V × V) =>
    (o.cat s.1 (bc i * dt) (k i) util).bind fun xc =>
    (o.cat s.2 (bf i * dt) (k i) util).bind fun xf => .ok (xc, xf)) (x, x)

/-- `_zODEUpdateERK`, zm_ode_erk.c:60-86, behind `zODEUpdateRKF45`, `zODEUpdateCK45` and `zODEUpdateDP45`; `dist` is `zVecDist`, `tol` and
`dtol` are `ZODE_ERK_TOL` and `ZODE_ERK_DT_TOL`.  The recursion is cut off after `fuel` levels (`fail`). -/
def zODEUpdateERK [LinearOrder K] (T : Tab K) (dist : V → V → K) (tol dtol : K) (o : Solver K V P) (util : P) : Nat → K → V → K → Res V
  | 0, _, _, _ => .fail
  | fuel+1, t, x, dt =>
    (erkStages o T.n T.a T.c t x dt util).bind fun k =>
    (erkSums o T.n T.bc T.bf k.1 x dt util).bind fun s =>
    if dt > dtol ∧ dist s.1 s.2 > tol then
      (zODEUpdateERK T dist tol dtol o util fuel t x (dt * (1/2))).bind fun x =>
        zODEUpdateERK T dist tol dtol o util fuel (t + dt * (1/2)) x (dt * (1/2))
    else .ok s.2

/-- `zODEUpdateDC`, zm_ode_dc.c:32-51, on top of a method `upd`; `tol` is `ZODE_DC_TOL`.  The recursion is cut off after `fuel` levels
(`fail`). -/
def zODEUpdateDC [LinearOrder K] (dist : V → V → K) (tol : K) (upd : K → V → K → P → Res V) (o : Solver K V P) (util : P) :
    Nat → K → V → K → Res V
  | 0, _, _, _ => .fail
  | fuel+1, t, x, dt =>
    (upd t x dt util).bind fun x1 =>
    let dt := dt * (1/2)
    (upd t x dt util).bind fun x2 =>
    (upd (t + dt) x2 dt util).bind fun x2 =>
    if dist x1 x2 > tol then
      (zODEUpdateDC dist tol upd o util fuel t x dt).bind fun x => zODEUpdateDC dist tol upd o util fuel (t + dt) x dt
    else o.sub ((2 : K) • x2) x1 util

/-- `_zODEUpdateAdams`, zm_ode_adams.c:64-72. -/
def adamsStep (n : Nat) (o : Solver K V P) (t : K) (x xorg : V) (w : Nat → K) (dt : K) (r : ODE.Ring V) (util : P) : Res (V × ODE.Ring V) :=
  (o.f t xorg util).bind fun k =>
  let r := r.setHead k
  (o.cat x dt (r.linearSum n w) util).bind fun y => .ok (y, r)

/-- The loop of the corrector, zm_ode_adams.c:117-121, with `m` more rounds; `near` is the test on the distance, and the result is `xnew`. -/
def adamsCorrect (near : V → V → Bool) (n : Nat) (o : Solver K V P) (t2 : K) (x : V) (wm : Nat → K) (dt : K) (util : P) :
    Nat → V → V → ODE.Ring V → Res (V × ODE.Ring V)
  | 0, _, xnew, r => .ok (xnew, r)
  | m+1, xold, _, r =>
    (adamsStep n o t2 x xold wm dt r util).bind fun s =>
    if near xold s.1 then .ok s else adamsCorrect near n o t2 x wm dt util m s.1 xold s.2

/-- `zODEUpdateAdams`, zm_ode_adams.c:100-127, with the weights of `zODECreateAdams`, zm_ode_adams.c:75-84; `x2` is what the working memory
holds. -/
def zODEUpdateAdams [LinearOrder K] (near : V → V → Bool) (step : Nat) (o : Solver K V P) (t : K) (x : V) (dt : K) (x2 : V) (r : ODE.Ring V)
    (util : P) : Res (V × ODE.Ring V) :=
  let wb := adamsWeight step (1 : K) (fun _ => 0)
  let wm := adamsWeight step (0 : K) (fun _ => 0)
  (adamsStep step o t x x wb dt r.dec util).bind fun s =>
  (adamsCorrect near step o (t + dt) x wm dt util 10000 s.1 x2 s.2.dec).bind fun s => .ok (s.1, s.2.inc)

/-! ## Implicit methods: the equations handed to `zNLESolve` -/

/-- `_zODE_BEuler_Func`, zm_ode_beuler.c:22-30, for the state `x0`, the time and the step kept in the working memory. -/
def beulerFunc (o : Solver K V P) (t1 dt : K) (x0 : V) (util : P) (x : V) : Res V :=
  (o.sub x x0 util).bind fun y => (o.f t1 x util).bind fun v => o.cat y (-dt) v util

/-- The equation of `zODEUpdateBEuler`, zm_ode_beuler.c:64-75. -/
def zODEBEulerEq (o : Solver K V P) (t : K) (x0 : V) (dt : K) (util : P) (x : V) : Res V := beulerFunc o (t + dt) dt x0 util x

/-- The equation of `zODEUpdateTR`, zm_ode_beuler.c:80-93. -/
def zODETREq (o : Solver K V P) (t : K) (x0 : V) (dt : K) (util : P) (x : V) : Res V :=
  (o.f t x0 util).bind fun v => (o.cat x0 ((1/2) * dt) v util).bind fun x0 => beulerFunc o (t + dt) ((1/2) * dt) x0 util x

/-- `_zODE_BK4_Func`, zm_ode_bk4.c:22-44. -/
def bk4Func (o : Solver K V P) (t1 t2 a11 a12 a21 a22 : K) (x : V) (util : P) (k1 k2 : V) : Res (V × V) :=
  (o.cat x a11 k1 util).bind fun xt =>
  (o.cat xt a12 k2 util).bind fun xt =>
  (o.f t1 xt util).bind fun v =>
  (o.sub k1 v util).bind fun y1 =>
  (o.cat x a21 k1 util).bind fun xt =>
  (o.cat xt a22 k2 util).bind fun xt =>
  (o.f t2 xt util).bind fun v =>
  (o.sub k2 v util).bind fun y2 => .ok (y1, y2)

/-- The equation of `zODEUpdateGauss`, zm_ode_bk4.c:88-93; `s3` is `sqrt(3)`. -/
def zODEGaussEq (s3 : K) (o : Solver K V P) (t : K) (x : V) (dt : K) (util : P) (k1 k2 : V) : Res (V × V) :=
  let c := s3 / 6
  bk4Func o (t + (1/2 + c) * dt) (t + (1/2 - c) * dt) ((1/4) * dt) ((1/4 + c) * dt) ((1/4 - c) * dt) ((1/4) * dt) x util k1 k2

/-- The result of `zODEUpdateGauss`, zm_ode_bk4.c:94,100-102. -/
def zODEGaussEnd (o : Solver K V P) (x : V) (dt : K) (util : P) (k1 k2 : V) : Res V :=
  (o.cat x (dt * (1/2)) k1 util).bind fun x => o.cat x (dt * (1/2)) k2 util

/-- The equation of `zODEUpdateRadau`, zm_ode_bk4.c:111-115. -/
def zODERadauEq (o : Solver K V P) (t : K) (x : V) (dt : K) (util : P) (k1 k2 : V) : Res (V × V) :=
  bk4Func o (t + dt/3) (t + dt) (-5 * (-1/12 * dt)) (-1/12 * dt) (3 * ((1/4) * dt)) ((1/4) * dt) x util k1 k2

/-- The result of `zODEUpdateRadau`, zm_ode_bk4.c:121-123. -/
def zODERadauEnd (o : Solver K V P) (x : V) (dt : K) (util : P) (k1 k2 : V) : Res V :=
  (o.cat x (3 * ((1/4) * dt)) k1 util).bind fun x => o.cat x ((1/4) * dt) k2 util

/-- `_zODE_Gear_Func`, zm_ode_gear.c:21-35; `self` is the pointer to the solver the function is called with (line 108) and `util` the one kept in
the working memory: line 31 passes the former on. -/
def gearFunc (step : Nat) (o : Solver K V P) (t dt : K) (r : ODE.Ring V) (self util : P) (x : V) : Res V :=
  (forUpM 0 step (fun i y => o.cat y (gearA step i : K) (r.elem i) self) x).bind fun y =>
  (o.f (t + dt) x util).bind fun v => o.cat y (-(gearB step) * dt) v util

/-- The equation of `zODEUpdateGear`, zm_ode_gear.c:98-108. -/
def zODEGearEq (step : Nat) (o : Solver K V P) (t : K) (x0 : V) (dt : K) (r : ODE.Ring V) (self util : P) (x : V) : Res V :=
  gearFunc step o t dt (r.setHead x0) self util x

/-! ## Second-order equations -/

/-- The functions of `zODE2`, zm_ode2.h:18-30. -/
structure Solver2 (K V P : Type*) where
  f : K → V → V → P → Res V
  cat_dis : V → K → V → P → Res V
  cat_vel : V → K → V → P → Res V
  sub_dis : V → V → P → Res V
  sub_vel : V → V → P → Res V

/-- What the pointer of a method under `zODE2UpdateRegular` points to: the `zODE2`, or the `zODE` inside of it. -/
inductive Addr where
  | ode2
  | ode
deriving DecidableEq

/-- `_zODE2RegularFunc`, zm_ode2.c:45-57; `util` is the member of that name, and the state is the pair of displacement and velocity.  A pointer
to something else than a `zODE2` is read as one: undefined. -/
def ode2Func (o : Solver2 K V P) (util : P) (t : K) (y : V × V) : Addr → Res (V × V)
  | .ode2 => (o.f t y.1 y.2 util).bind fun a => .ok (y.2, a)
  | .ode => .ub

/-- `_zODE2Cat`, zm_ode2.c:60-75. -/
def ode2Cat (o : Solver2 K V P) (util : P) (y : V × V) (dt : K) (dy : V × V) : Addr → Res (V × V)
  | .ode2 => (o.cat_dis y.1 dt dy.1 util).bind fun xn => (o.cat_vel y.2 dt dy.2 util).bind fun vn => .ok (xn, vn)
  | .ode => .ub

/-- `_zODE2Sub`, zm_ode2.c:78-93. -/
def ode2Sub (o : Solver2 K V P) (util : P) (y1 y2 : V × V) : Addr → Res (V × V)
  | .ode2 => (o.sub_dis y1.1 y2.1 util).bind fun dx => (o.sub_vel y1.2 y2.2 util).bind fun dv => .ok (dx, dv)
  | .ode => .ub

/-- The solver `_ode` inside a `zODE2`, zm_ode2.h:112 (`zODE2AssignRegular`) and zm_ode2.c:27,100. -/
def inner (o : Solver2 K V P) (util : P) : Solver K (V × V) Addr where
  f := ode2Func o util
  cat := ode2Cat o util
  sub := ode2Sub o util

/-- `zODE2UpdateRegular`, zm_ode2.c:96-104, on top of a method `upd` for equations of first order. -/
def zODE2UpdateRegular (upd : Solver K (V × V) Addr → K → V × V → K → Addr → Res (V × V)) (o : Solver2 K V P) (t : K) (x v : V) (dt : K)
    (util : P) : Res (V × V) :=
  upd (inner o util) t (x, v) dt .ode2

/-- `zODE2UpdateSymplectic`, zm_ode2.c:127-132. -/
def zODE2UpdateSymplectic (o : Solver2 K V P) (t : K) (x v : V) (dt : K) (util : P) : Res (V × V) :=
  (o.f t x v util).bind fun a =>
  (o.cat_vel v dt a util).bind fun v =>
  (o.cat_dis x dt v util).bind fun x => .ok (x, v)

/-- `zODE2UpdateLeapfrog`, zm_ode2.c:165-175: displacement, velocity and the velocity kept from half a step before. -/
def zODE2UpdateLeapfrog (o : Solver2 K V P) (t : K) (x v vh : V) (dt : K) (util : P) : Res (V × V × V) :=
  (o.f t x v util).bind fun a =>
  (o.cat_vel vh dt a util).bind fun vh =>
  (o.cat_dis x dt vh util).bind fun x =>
  (o.f t x vh util).bind fun a =>
  (o.cat_vel vh ((1/2) * dt) a util).bind fun v => .ok (x, v, vh)

end

end Zm.ODEUser
