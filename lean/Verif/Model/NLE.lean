import Verif.Model.OptDM

/-!
# Simultaneous nonlinear equations (zm_nle_dm.c)

Vectors are functions of which the first entries have a meaning, as in `Model/OptDM.lean`.  The residual function
delivers a vector or `none` if one of its entries is `NaN`; arithmetic with `NaN` and a zero divisor are `ub`, and so is
a search that has not ended after `fuel` turns.  `nv` is the number of variables and `ne` the number of equations.
-/

namespace Zm.NLE
open Zm LE Misc OptDM
variable {K : Type*} [Field K] [LinearOrder K]

/-- One column of `_zNLEJacobiNG`, zm_nle_dm.c:19-26: the differences are written to the `ne` places from `nv * i` on of
the buffer of the matrix, which has `ne * nv` places. -/
def jacNGStep (eps : K) (nv ne : Nat) (f : (Nat → K) → Nat → K) (i : Nat) (st : (Nat → K) × (Nat → K)) : Res ((Nat → K) × (Nat → K)) :=
  let org := st.1 i
  let v1 := set1 st.1 i (org + eps)
  let adg := f v1
  let v2 := set1 v1 i (org - eps)
  let prg := f v2
  (forUpM 0 ne (fun k (j : Nat → K) => if nv * i + k < ne * nv then .ok (set1 j (nv * i + k) (adg k - prg k)) else .ub) st.2).bind fun j =>
  .ok (set1 v2 i org, j)

/-- `_zNLEJacobiNG`, zm_nle_dm.c:13-30, for a residual without `NaN`: the point and the buffer of the matrix, whose
element of row `r` and column `c` is in place `nv * r + c`. -/
def jacNG (eps : K) (nv ne : Nat) (f : (Nat → K) → Nat → K) (var j : Nat → K) : Res ((Nat → K) × (Nat → K)) :=
  (forUpM 0 nv (jacNGStep eps nv ne f) (var, j)).bind fun st =>
  .ok (st.1, fun q => st.2 q * ((1/2) / eps))

/-- The matrix in a buffer. -/
def unflat (nv : Nat) (j : Nat → K) : Nat → Nat → K := fun r c => j (nv * r + c)

/-- `_zNLEEval`, zm_nle_dm.c:34-39, and `_zNLEEvalRes`, 70-75, from the residual. -/
def sqEval (ne : Nat) (we f : Nat → K) : K := (1/2) * inner ne f (amp ne (some we) f)

/-- `_zNLEEval`, `_zNLEGrad` and `_zNLEHess`, zm_nle_dm.c:34-50, as a problem of the descent methods; `jac` is the
Jacobian matrix.  The gradient and the Hessian matrix use the residual and the Jacobian matrix kept from the evaluation
and the gradient before, which the solver computes at the same point. -/
def descent (nv ne : Nat) (f : (Nat → K) → Option (Nat → K)) (jac : (Nat → K) → Nat → Nat → K) (we : Nat → K) (scale ztol df cf : K) : Prob K :=
  { n := nv
    eval := fun x => (f x).map (sqEval ne we)
    grad := fun x => mulTVec ne nv (jac x) (amp ne (some we) ((f x).getD (fun _ => 0))) (fun _ => 0)
    hess := fun x => zMatTQuadNC ne nv (jac x) (some we)
    scale := scale, ztol := ztol, df := df, cf := cf }

/-- `_zNLEStep`, zm_nle_dm.c:55-68: the new point and its residual. -/
def step (ztol : K) (f : (Nat → K) → Option (Nat → K)) (var d : Nat → K) : Nat → K → Res ((Nat → K) × (Nat → K))
  | 0, _ => .ub
  | k+1, a =>
    if a > ztol then
      let x := fun i => var i + -a * d i
      match f x with
      | some fp => .ok (x, fp)
      | none => step ztol f var d k (a * (1/2))
    else .fail

/-- What a solver leaves: the returned number, the variable, and the error if it was written. -/
structure Out (K : Type*) where
  ret : Int
  var : Nat → K
  err : Option K

/-- The parameters of a solver. -/
structure Sys (K : Type*) where
  nv : Nat
  ne : Nat
  f : (Nat → K) → Option (Nat → K)
  jac : (Nat → K) → Res (Nat → Nat → K)
  wn : Nat → K
  we : Nat → K
  ztol : K

/-- `zLESolveSRDST` on the workspace, zm_le_gen.c:406-416, called in zm_nle_dm.c:102; its result is not examined, so
that the direction before is used if it fails (the permutation is then taken to be kept). -/
def nrDirection (S : Sys K) (idx : Nat → Nat) (j : Nat → Nat → K) (f d : Nat → K) : Res ((Nat → K) × (Nat → Nat)) :=
  match gaussSolveIdx S.ztol S.nv idx (addDiag S.nv (zMatTQuadNC S.ne S.nv j (some S.we)) (fun i => S.wn i + 0))
      (mulTVec S.ne S.nv j (amp S.ne (some S.we) f) (fun _ => 0)) d with
  | .ok r => .ok r
  | .fail => .ok (d, idx)
  | .ub => .ub

/-- `_zNLESolveNR`, zm_nle_dm.c:94-106, with `k` turns left of which the next has number `i`. -/
def nrLoop (S : Sys K) (tol : K) (fuel : Nat) : Nat → Nat → (Nat → K) → (Nat → K) → (Nat → Nat) → Res (Out K)
  | 0, _, var, _, _ => .ok { ret := -1, var := var, err := none }
  | k+1, i, var, d, idx =>
    match S.f var with
    | none => .ub
    | some fv =>
      if isTol S.ne fv tol then .ok { ret := i, var := var, err := some (sqEval S.ne S.we fv) }
      else
        (S.jac var).bind fun j =>
        (nrDirection S idx j fv d).bind fun r =>
        match step S.ztol S.f var r.1 fuel 1 with
        | .ok xf => nrLoop S tol fuel k (i+1) xf.1 r.1 r.2
        | .fail => .ok { ret := -1, var := var, err := none }
        | .ub => .ub

/-- `_zNLESolveNR`, zm_nle_dm.c:84-107. -/
def solveNR (S : Sys K) (tol : K) (iter : Int) (fuel : Nat) (var : Nat → K) : Res (Out K) :=
  nrLoop S tol fuel (OneD.iterInit iter) 0 var (fun _ => 0) (fun i => i)

/-- Broyden's update, zm_nle_dm.c:136. -/
def broydenUpdate (n : Nat) (j : Nat → Nat → K) (f d : Nat → K) : Res (Nat → Nat → K) :=
  if inner n d d = 0 then .ub
  else .ok fun r c => j r c + -1 / inner n d d * f r * d c

/-- The direction of Broyden's method, zm_nle_dm.c:122-128: if the matrix is singular it is computed anew. -/
def broydenDirection (S : Sys K) (j : Nat → Nat → K) (var f d : Nat → K) : Res ((Nat → Nat → K) × (Nat → K)) :=
  match zLESolveGauss S.ztol S.nv j f d with
  | .ok d => .ok (j, d)
  | .ub => .ub
  | .fail => (S.jac var).bind fun j => (zLESolveGauss S.ztol S.nv j f d).bind fun d => .ok (j, d)

/-- The loop of `_zNLESolveBroyden`, zm_nle_dm.c:121-139. -/
def broydenLoop (S : Sys K) (tol : K) (fuel : Nat) : Nat → Nat → (Nat → K) → (Nat → K) → (Nat → Nat → K) → (Nat → K) → Res (Out K)
  | 0, _, var, _, _, _ => .ok { ret := -1, var := var, err := none }
  | k+1, i, var, fv, j, d =>
    match broydenDirection S j var fv d with
    | .ub => .ub
    | .fail => .ok { ret := -1, var := var, err := none }
    | .ok jd =>
      match step S.ztol S.f var jd.2 fuel 1 with
      | .ub => .ub
      | .fail => .ok { ret := -1, var := var, err := none }
      | .ok xf =>
        if isTol S.ne xf.2 tol then .ok { ret := i, var := xf.1, err := some (sqEval S.ne S.we xf.2) }
        else (broydenUpdate S.nv jd.1 xf.2 jd.2).bind fun j => broydenLoop S tol fuel k (i+1) xf.1 xf.2 j jd.2

/-- `_zNLESolveBroyden`, zm_nle_dm.c:110-140, for as many equations as variables: otherwise `zLESolveGauss` is given
a matrix that is not square and refuses it. -/
def solveBroyden (S : Sys K) (tol : K) (iter : Int) (fuel : Nat) (var : Nat → K) : Res (Out K) :=
  match S.f var with
  | none => .ub
  | some fv =>
    if isTol S.ne fv tol then .ok { ret := 0, var := var, err := some (sqEval S.ne S.we fv) }
    else (S.jac var).bind fun j => broydenLoop S tol fuel (OneD.iterInit iter) 0 var fv j (fun _ => 0)

end Zm.NLE
