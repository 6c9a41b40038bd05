import Verif.Model.LEGen
import Verif.Model.OneD

/-!
# Descent methods for unconstrained optimisation (zm_opt_dm.c)

Vectors are functions `Nat → K`, of which only the first `n` entries have a meaning, `n` being the dimension; the
element-wise operations of the library are written as operations on whole functions.  The evaluator delivers a number
or `none` for `NaN`; infinities do not occur.  Arithmetic with a `NaN`, a zero divisor and the root of a negative
number are `ub`, and so is a search that has not ended after `fuel` turns: `ok` and `fail` are the calls that return.
Allocation succeeds and `n` is positive.
-/

namespace Zm.OptDM
open Zm LE Misc
variable {K : Type*} [Field K] [LinearOrder K]

/-- What `zOptDM` (include/zm/zm_opt_dm.h:31-49) holds besides its workspace: the dimension, the evaluator, the
functions for the gradient and the Hessian matrix, the greatest step, `zTOL`, and the two factors of the line search. -/
structure Prob (K : Type*) where
  n : Nat
  eval : (Nat → K) → Option K
  grad : (Nat → K) → Nat → K
  hess : (Nat → K) → Nat → Nat → K
  scale : K
  ztol : K
  df : K
  cf : K

/-- The workspace, include/zm/zm_opt_dm.h:42-46. -/
structure DM (K : Type*) where
  x : Nat → K
  d : Nat → K
  g : Nat → K
  p : Nat → K
  q : Nat → K
  r : Nat → K
  h : Nat → Nat → K
  idx : Nat → Nat
  b : K

/-- The workspace after `zOptDMCreate`, zm_opt_dm.c:346-358: allocation clears it. -/
def created : DM K :=
  { x := fun _ => 0, d := fun _ => 0, g := fun _ => 0, p := fun _ => 0, q := fun _ => 0, r := fun _ => 0, h := fun _ _ => 0, idx := fun i => i, b := 0 }

/-- The greatest step in use, zm_opt_dm.c:336 and 345. -/
def scaleOf (scale : K) : K := if scale = 0 then 1000 else scale

/-- `_zOptDMGradNG`, zm_opt_dm.c:14-29, for an evaluator `f` without `NaN`; `eps` is `Z_OPT_EPS`.  The point is altered
and restored: both it and the gradient are delivered. -/
def gradNG (eps : K) (n : Nat) (f : (Nat → K) → K) (var g : Nat → K) : (Nat → K) × (Nat → K) :=
  forUp 0 n (fun i (st : (Nat → K) × (Nat → K)) =>
    let org := st.1 i
    let v1 := set1 st.1 i (org + eps)
    let adv := f v1
    let v2 := set1 v1 i (org - eps)
    let prv := f v2
    (set1 v2 i org, set1 st.2 i ((1/2) * (adv - prv) / eps))) (var, g)

/-- `_zOptDMHessNG`, zm_opt_dm.c:36-63, for a gradient `grad`. -/
def hessNG (eps : K) (n : Nat) (grad : (Nat → K) → Nat → K) (var : Nat → K) (h : Nat → Nat → K) : (Nat → K) × (Nat → Nat → K) :=
  let st := forUp 0 n (fun i (st : (Nat → K) × (Nat → Nat → K)) =>
    let org := st.1 i
    let v1 := set1 st.1 i (org + eps)
    let adg := grad v1
    let v2 := set1 v1 i (org - eps)
    let prg := grad v2
    (set1 v2 i org, forUp 0 n (fun j h => set2 h i j (adg j - prg j)) st.2)) (var, h)
  (st.1, fun i j => st.2 i j * ((1/2) / eps))

/-- The outcome of `_zOptDMStepTest`: the verdict, the length of the step, the step, the point and its value. -/
structure Tested (K : Type*) where
  good : Bool
  a : K
  p : Nat → K
  x : Nat → K
  e : Option K

/-- The condition of zm_opt_dm.c:83; a comparison with `NaN` is false. -/
def sufficient (e0 a df : K) : Option K → Bool
  | some e => decide (e0 - e ≥ a * df)
  | none => false

/-- `_zOptDMStepTest`, zm_opt_dm.c:67-84, in `fuel` turns; `p`, `x`, `e` are what the workspace holds. -/
def stepTest (P : Prob K) (d var : Nat → K) (e0 df : K) : Nat → K → (Nat → K) → (Nat → K) → Option K → Res (Tested K)
  | 0, _, _, _, _ => .ub
  | k+1, a, p, x, e =>
    if a > P.ztol then
      let p := fun i => -a * d i
      let x := fun i => var i + p i
      match P.eval x with
      | none => stepTest P d var e0 df k (a * (1/10)) p x none
      | some e =>
        let max := absMax P.n p
        if max > P.scale then stepTest P d var e0 df k (a * (P.scale / max)) p x (some e)
        else .ok { good := sufficient e0 a df (some e), a := a, p := p, x := x, e := some e }
    else .ok { good := sufficient e0 a df e, a := a, p := p, x := x, e := e }

/-- The end of a line search, zm_opt_dm.c:154-157, 189-192, 212 and 217-219. -/
def accept (P : Prob K) (st : DM K) (t : Tested K) : DM K × (Nat → K) × Option K :=
  let r := P.grad t.x
  ({ st with x := t.x, p := t.p, r := r, q := fun i => r i - st.g i, g := r }, t.x, t.e)

/-- `_zOptDMStepPlain`, zm_opt_dm.c:87-92. -/
def stepPlain (P : Prob K) (st : DM K) (var : Nat → K) (_e0 : Option K) : Res (DM K × (Nat → K) × Option K) :=
  let var := fun i => var i + st.d i
  .ok (st, var, P.eval var)

/-- `Z_OPT_DM_STEP_MIN`, zm_opt_dm.c:161. -/
def stepMin : K := 1 / 1000

/-- The loop of `_zOptDMStepNoc`, zm_opt_dm.c:207-220. -/
def nocLoop (P : Prob K) (fuel : Nat) (st : DM K) (var : Nat → K) (e0 df cf : K) : Nat → K → (Nat → K) → (Nat → K) → Option K → Res (DM K × (Nat → K) × Option K)
  | 0, _, _, _, _ => .ub
  | k+1, a, p, x, e =>
    if a ≥ stepMin then
      (stepTest P st.d var e0 df fuel a p x e).bind fun t =>
        if !t.good then nocLoop P fuel st var e0 df cf k (t.a * (1/2)) t.p t.x t.e
        else if t.a > stepMin ∧ inner P.n (P.grad t.x) st.d > cf then nocLoop P fuel st var e0 df cf k (t.a * (21/10)) t.p t.x t.e
        else .ok (accept P st t)
    else .fail

/-- `_zOptDMStepNoc`, zm_opt_dm.c:196-223. -/
def stepNoc (P : Prob K) (fuel : Nat) (st : DM K) (var : Nat → K) : Option K → Res (DM K × (Nat → K) × Option K)
  | none => .fail
  | some e0 =>
    let s := inner P.n st.g st.d
    nocLoop P fuel st var e0 (P.df * s) (P.cf * s) fuel 1 st.p st.x none

/-- The loop of `_zOptDMStepDS`, zm_opt_dm.c:178-186; `sqrt` is the square root. -/
def dsLoop (P : Prob K) (sqrt : K → K) (fuel : Nat) (st : DM K) (var : Nat → K) (e0 s df : K) : Nat → K → K → K → Tested K → Res (Tested K)
  | 0, _, _, _, _ => .ub
  | k+1, a1, a2, v2, t =>
    let da := a1 - a2
    if |da - a1| ≤ P.ztol then .ok t
    else match t.e with
      | none => .ub
      | some e1 =>
        if a2 * a2 = 0 ∨ da = 0 then .ub
        else
          let v1 := (e1 - e0 + s * a2) / (a2 * a2)
          let c1 := 3 * (v1 - v2) / da
          let c2 := (v2 * a1 - v1 * a2) / da
          if c1 = 0 ∨ c2 * c2 + c1 * s < 0 then .ub
          else
            (stepTest P st.d var e0 df fuel (max ((-c2 + sqrt (c2 * c2 + c1 * s)) / c1) stepMin) t.p t.x t.e).bind fun t' =>
              if t'.good then .ok t' else dsLoop P sqrt fuel st var e0 s df k t'.a a1 v1 t'

/-- `_zOptDMStepDS`, zm_opt_dm.c:162-193, from the full step to the end of the search. -/
def dsSearch (P : Prob K) (sqrt : K → K) (fuel : Nat) (st : DM K) (var : Nat → K) (e0 : K) : Res (Tested K) :=
  let s := inner P.n st.g st.d
  let df := P.df * s
  (stepTest P st.d var e0 df fuel 1 st.p st.x none).bind fun t =>
    if t.good then .ok t
    else match t.e with
      | none => .ub
      | some e1 =>
        let v2 := e1 - e0 + t.a * s
        if v2 = 0 then .ub
        else
          (stepTest P st.d var e0 df fuel (max ((1/2) * s / v2) stepMin) t.p t.x t.e).bind fun t' =>
            if t'.good then .ok t' else dsLoop P sqrt fuel st var e0 s df fuel t'.a t.a v2 t'

/-- `_zOptDMStepDS`, zm_opt_dm.c:162-193. -/
def stepDS (P : Prob K) (sqrt : K → K) (fuel : Nat) (st : DM K) (var : Nat → K) : Option K → Res (DM K × (Nat → K) × Option K)
  | none => .fail
  | some e0 => (dsSearch P sqrt fuel st var e0).bind fun t => .ok (accept P st t)

/-- The trial length of zm_opt_dm.c:116-136 from the ends of the interval, the values and the slopes. -/
def mtTrial (sqrt : K → K) (al au at' da e1 fl gl gt : K) : Res K :=
  let v1 := e1 - fl - gl * da
  let v2 := gt - gl
  let c1 := 3 * (-2 * v1 + v2 * da) / (da * da * da)
  let c2 := (3 * v1 - v2 * da) / (da * da)
  if da = 0 ∨ c1 = 0 ∨ v1 = 0 ∨ c2 * c2 - c1 * gl < 0 then .ub
  else
    let ac := al + (-c2 + sqrt (c2 * c2 - c1 * gl)) / c1
    let aq := al - (1/2) * gl * da * da / v1
    if e1 > fl then .ok (if |ac - al| < |aq - al| then ac else (1/2) * (aq + ac))
    else if v2 = 0 then .ub
    else
      let as := al - gl * da / v2
      if gt * gl < 0 then .ok (if |ac - at'| ≥ |as - at'| then ac else as)
      else if |gt| ≤ |gl| then
        let at2 := if |ac - at'| < |as - at'| then ac else as
        let v1 := at2 + (66/100) * (au - at2)
        .ok (if at2 > al then min v1 at2 else max v1 at2)
      else .ok ac

/-- The loop of `_zOptDMStepMT`, zm_opt_dm.c:114-151; the slope `gt` is computed from the gradient at the start of the
search (line 142 reads `_g`, not `_r`). -/
def mtLoop (P : Prob K) (sqrt : K → K) (fuel : Nat) (st : DM K) (var : Nat → K) (e0 df : K) : Nat → K → K → K → K → K → Tested K → Res (Tested K)
  | 0, _, _, _, _, _, _ => .ub
  | k+1, al, au, da, fl, gl, t =>
    if da > P.ztol then
      match t.e with
      | none => .ub
      | some e1 =>
        let gt := -inner P.n st.g st.d
        (mtTrial sqrt al au t.a da e1 fl gl gt).bind fun at' =>
          (stepTest P st.d var e0 df fuel at' t.p t.x t.e).bind fun t' =>
            if t'.good then .ok t'
            else match t'.e with
              | none => .ub
              | some e1 =>
                let da := t'.a - al
                if e1 > fl then mtLoop P sqrt fuel st var e0 df k al t'.a da fl gl t'
                else mtLoop P sqrt fuel st var e0 df k t'.a (if gt * da > 0 then t'.a else au) da e1 gt t'
    else .ok t

/-- `_zOptDMStepMT`, zm_opt_dm.c:95-158. -/
def stepMT (P : Prob K) (sqrt : K → K) (fuel : Nat) (st : DM K) (var : Nat → K) : Option K → Res (DM K × (Nat → K) × Option K)
  | none => .fail
  | some e0 =>
    let s := inner P.n st.g st.d
    let df := P.df * s
    (stepTest P st.d var e0 df fuel 1 st.p st.x none).bind fun t =>
      if t.good then .ok (accept P st t)
      else (mtLoop P sqrt fuel st var e0 df fuel 0 t.a 1 e0 (-s) t).bind fun t => .ok (accept P st t)

/-- `_zOptDMStepBrent`, zm_opt_dm.c:233-261; `f` is the evaluator where it is not `NaN`, `gold` and `eps` are the
constants of `zOptLineBrent`. -/
def stepBrent (P : Prob K) (gold eps : K) (f : (Nat → K) → K) (st : DM K) (var : Nat → K) : Option K → Res (DM K × (Nat → K) × Option K)
  | none => .fail
  | some _ =>
    (OneD.zOptLineBrent (fun a => f (fun i => var i - a * st.d i)) gold eps P.ztol 0 1 100).bind fun a =>
      let p := fun i => -a * st.d i
      let x := fun i => var i + p i
      let r := P.grad x
      if inner P.n st.g st.g = 0 then .ub
      else .ok ({ st with x := x, p := p, r := r, q := fun i => r i - st.g i, g := r, b := inner P.n r r / inner P.n st.g st.g }, x, P.eval x)

/-- `_zOptDMUpdateNone`, zm_opt_dm.c:265-269; the remainder is C's, of a number that may be -1. -/
def updateNone (n : Nat) (st : DM K) (count : Nat) : Res (DM K) :=
  .ok (if ((count : Int) - 1).tmod n = 0 then { st with b := 0 } else st)

/-- `_zOptDMUpdateDFP`, zm_opt_dm.c:270-279; `zMatCatDyadNC` adds a multiple of a dyad. -/
def updateDFP (n : Nat) (st : DM K) (_count : Nat) : Res (DM K) :=
  let k := inner n st.p st.q
  if k = 0 then .ub
  else
    let l := 1 / k
    let r : Nat → K := fun i => inner n (st.h i) st.q
    let h := fun i j => st.h i j + (1 + inner n r st.q / k) * l * st.p i * st.p j
    let h := fun i j => h i j + -l * st.p i * r j
    let h := fun i j => h i j + -l * r i * st.p j
    .ok { st with r := r, h := h }

/-- `_zOptDMUpdateBFGS`, zm_opt_dm.c:280-298. -/
def updateBFGS (n : Nat) (st : DM K) (_count : Nat) : Res (DM K) :=
  let r : Nat → K := fun i => inner n (st.h i) st.q
  if inner n st.p st.q = 0 then .ub
  else
    let k := 1 / inner n st.p st.q
    let l := inner n st.q r * k + 1
    .ok { st with r := r, h := fun i j => st.h i j + (l * st.p i * st.p j - r i * st.p j - r j * st.p i) * k }

/-- `_zOptDMVecSD`, zm_opt_dm.c:303-306. -/
def vecSD (st : DM K) (_var : Nat → K) : Res (DM K) := .ok { st with d := st.g }

/-- `_zOptDMVecVM`, zm_opt_dm.c:322-325. -/
def vecVM (n : Nat) (st : DM K) (_var : Nat → K) : Res (DM K) := .ok { st with d := fun i => inner n (st.h i) st.g }

/-- `_zOptDMVecCG`, zm_opt_dm.c:328-332. -/
def vecCG (st : DM K) (_var : Nat → K) : Res (DM K) := .ok { st with d := fun i => st.d i * st.b + st.g i }

/-- What `zLESolveGaussDST` leaves in its right-hand side and in the permutation, zm_le.c:133-155: the state of the
elimination that `gaussSolveIdx` goes through. -/
def gaussLeaves (tol : K) (n : Nat) (idx : Nat → Nat) (a : Nat → Nat → K) (b : Nat → K) : Res (GS K K) :=
  let as := zMatColBalancingDST n n a (fun _ => 0)
  let ab := rowBalancingDST n n as.1 b
  forUpM 0 n (forwardStep tol n) { a := ab.1, b := ab.2, idx := idx }

/-- `_zOptDMVecLM`, zm_opt_dm.c:309-319: the solver destroys the gradient in the workspace.  Its result is not
examined; where the matrix is singular what it leaves is not modelled (`ub`). -/
def vecLM (P : Prob K) (st : DM K) (var : Nat → K) : Res (DM K) :=
  let m := inner P.n st.g st.g
  let h := addDiag P.n (P.hess var) (fun _ => m)
  match gaussSolveIdx P.ztol P.n st.idx h st.g st.d, gaussLeaves P.ztol P.n st.idx h st.g with
  | .ok r, .ok gs => .ok { st with d := r.1, idx := r.2, g := gs.b, h := gs.a }
  | _, _ => .ub

/-- `zVecIsTol`. -/
def isTol (n : Nat) (v : Nat → K) (tol : K) : Bool := decide (∀ i, i < n → |v i| ≤ tol)

/-- What a call of `zOptDMSolve` leaves behind: the returned number, the variable, the value reported, the workspace. -/
structure Solved (K : Type*) where
  ret : Int
  var : Nat → K
  eval : Option K
  ws : DM K

/-- The loop of `zOptDMSolve`, zm_opt_dm.c:443-451, with `k` turns left of which the next has number `i`. -/
def solveLoop (n : Nat) (vec : DM K → (Nat → K) → Res (DM K)) (step : DM K → (Nat → K) → Option K → Res (DM K × (Nat → K) × Option K))
    (update : DM K → Nat → Res (DM K)) (tol : K) : Nat → Nat → DM K → (Nat → K) → Option K → Res (Solved K)
  | 0, _, st, var, e => .ok { ret := -1, var := var, eval := e, ws := st }
  | k+1, i, st, var, e =>
    (vec st var).bind fun st =>
      match step st var e with
      | .ub => .ub
      | .fail => .ok { ret := -1, var := var, eval := e, ws := st }
      | .ok (st, var, e') =>
        if isTol n st.g tol || isTol n st.p tol then .ok { ret := i, var := var, eval := e, ws := st }
        else (update st i).bind fun st => solveLoop n vec step update tol k (i+1) st var e'

/-- The start of `zOptDMSolve`, zm_opt_dm.c:438-441: the unit matrix and the gradient. -/
def started (P : Prob K) (st : DM K) (var : Nat → K) : DM K :=
  { st with h := fun i j => if i = j then 1 else 0, g := P.grad var }

/-- `zOptDMSolve`, zm_opt_dm.c:432-452, for a method made of a direction, a line search and an update. -/
def zOptDMSolve (P : Prob K) (vec : DM K → (Nat → K) → Res (DM K)) (step : DM K → (Nat → K) → Option K → Res (DM K × (Nat → K) × Option K))
    (update : DM K → Nat → Res (DM K)) (tol : K) (iter : Int) (st : DM K) (var : Nat → K) : Res (Solved K) :=
  let st := started P st var
  if isTol P.n st.g tol then .ok { ret := 0, var := var, eval := P.eval var, ws := st }
  else solveLoop P.n vec step update tol (OneD.iterInit iter) 0 st var (P.eval var)

end Zm.OptDM
