import Verif.Model.LEGen

/-!
# Primal-dual interior-point method for linear programming (zm_opt_lp_pdip.c)

Minimise `c'x` subject to `A x = b` and `x ≥ 0`, with `n` variables and `m` constraints.  The sizes of the arguments agree and allocations are
taken to succeed.  Vectors are functions; the places beyond the size are not used.

The tolerance `zTOL` occurs in two roles, which the model keeps apart: `tol` decides whether the residuals are small enough, moves the first point
into the interior and cleans up the answer; `etol` stands in the comparisons with zero inside of the iteration, that is, in the pivots, in the signs
of the directions and in the test of the steps.  The program is the case `tol = etol`.
-/

namespace Zm.PDIP
open Zm LE Misc
variable {K : Type*} [Field K] [LinearOrder K]

/-- The problem and the settings.  `deg` stands for `_zLESolveLUDeg` (zm_opt_lp_pdip.c:94-108), the solver for a matrix that has not the full rank,
which is not modelled. -/
structure Prob (K : Type*) where
  n : Nat
  m : Nat
  a : Nat → Nat → K
  b : Nat → K
  c : Nat → K
  tol : K
  etol : K
  sqrt : K → K
  deg : LUS K → (Nat → K) → (Nat → K)

/-- The point: `x`, `y` and `z` of `_zLP_PDIP`. -/
structure St (K : Type*) where
  x : Nat → K
  y : Nat → K
  z : Nat → K

/-- `zVecElemMin`, zm_vec.c:274, of a vector of `n ≥ 1` elements. -/
def elemMin (n : Nat) (v : Nat → K) : K := forUp 1 n (fun i m => if v i < m then v i else m) (v 0)

/-- zm_opt_lp_pdip.c:78-81: move the elements above the tolerance. -/
def shiftPos (tol : K) (n : Nat) (v : Nat → K) : Nat → K :=
  if elemMin n v ≤ tol then fun i => v i + (- elemMin n v + tol) else v

/-- `_zLP_PDIPInit`, zm_opt_lp_pdip.c:67-83; `x0` are the old contents of `x`.  `zLESolveMP` returns its last argument, which is not null. -/
def init (P : Prob K) (x0 : Nat → K) : Res (St K) :=
  if P.n = 0 then .ub
  else .ok
    { x := shiftPos P.tol P.n (zLESolveMP P.etol P.etol P.sqrt P.m P.n P.a P.b none none x0)
      y := fun _ => 1
      z := shiftPos P.tol P.n fun j => P.c j - mulTVec P.m P.n P.a (fun _ => 1) (fun _ => 0) j }

/-- `_zLP_PDIP_PCErr`, zm_opt_lp_pdip.c:163-173: the residual of the constraints. -/
def v1 (P : Prob K) (st : St K) : Nat → K := fun i => mulVec P.m P.n P.a st.x (fun _ => 0) i - P.b i

/-- `_zLP_PDIP_PCErr`, zm_opt_lp_pdip.c:163-173: the residual of the dual constraints. -/
def v2 (P : Prob K) (st : St K) : Nat → K := fun j => mulTVec P.m P.n P.a st.y (fun _ => 0) j + st.z j - P.c j

/-- `_zLP_PDIP_PCErr`, zm_opt_lp_pdip.c:163-173: the products, whose sum is the duality gap. -/
def v3 (st : St K) : Nat → K := fun j => st.x j * st.z j

/-- The value of `_zLP_PDIP_PCErr`, zm_opt_lp_pdip.c:172. -/
def gap (P : Prob K) (st : St K) : K := forUp 0 P.n (fun j s => s + v3 st j) 0

/-- `_zLP_PDIPEqLUDecomp`, zm_opt_lp_pdip.c:86-91; the quotients are not finite if an element of `z` is zero. -/
def luDecomp (P : Prob K) (st : St K) : Res (LUS K) :=
  if ∃ j < P.n, st.z j = 0 then .ub
  else zMatDecompLU P.etol P.m P.m (zMatQuadNC P.m P.n P.a (some fun j => st.x j / st.z j))

/-- Three directions. -/
structure Dir (K : Type*) where
  dx : Nat → K
  dy : Nat → K
  dz : Nat → K

/-- The right-hand side of the equation for `dy` in `_zLP_PDIPEqLU`, zm_opt_lp_pdip.c:113-118; null pointers are zero vectors.  `z` has been a
divisor in `_zLP_PDIPEqLUDecomp`. -/
def eqRhs (P : Prob K) (st : St K) (w1 w2 w3 : Nat → K) : Nat → K :=
  fun i => - (mulVec P.m P.n P.a (fun j => (w2 j * st.x j - w3 j) / st.z j) (fun _ => 0) i + w1 i)

/-- `_zLP_PDIPEqLU`, zm_opt_lp_pdip.c:110-133; `dy0` are the old contents of `dy`. -/
def eqLU (P : Prob K) (st : St K) (lu : LUS K) (w1 w2 w3 dy0 : Nat → K) : Dir K :=
  let t := eqRhs P st w1 w2 w3
  let dy := if lu.r = P.m then zLESolveLU P.m lu.l lu.u t dy0 lu.idx else P.deg lu t
  let dz := fun j => - (mulTVec P.m P.n P.a dy (fun _ => 0) j + w2 j)
  { dx := fun j => - ((st.x j * dz j + w3 j) / st.z j), dy := dy, dz := dz }

/-- The loop of `_zLP_PDIP_PCStep`, zm_opt_lp_pdip.c:182-201: the values `max` and `min`, `none` if they have not been set; the whole is `none` if the
function has returned zero in line 186.  The quotient of line 188 is not used if `d` is tiny. -/
def stepLoop (tol : K) (x d : Nat → K) : Nat → Option (Option K × Option K) :=
  fun n => forUp 0 n (fun i s =>
    match s with
    | none => none
    | some (mx, mn) =>
      if zIsTol (d i) tol ∧ x i < -tol then none
      else if d i < -tol then some ((match mx with | none => some (-x i / d i) | some v => if -x i / d i < v then some (-x i / d i) else some v), mn)
      else if tol < d i then some (mx, (match mn with | none => some (-x i / d i) | some v => if v < -x i / d i then some (-x i / d i) else some v))
      else some (mx, mn)) (some (none, none))

/-- `_zLP_PDIP_PCStep`, zm_opt_lp_pdip.c:176-207. -/
def step (tol : K) (n : Nat) (x d : Nat → K) : K :=
  match stepLoop tol x d n with
  | none => 0
  | some (mx, mn) => if mx.getD 0 < mn.getD 0 then 0 else mx.getD 0

/-- `_zLP_PDIP_PCCorrect`, zm_opt_lp_pdip.c:210-219: the third right-hand side of the corrector. -/
def correct (P : Prob K) (st : St K) (D : Dir K) (ap ad e : K) : Nat → K :=
  let g := inner P.n (fun j => st.x j + ap * D.dx j) (fun j => st.z j + ad * D.dz j) / e
  fun j => D.dx j * D.dz j - g * g * g * e / (P.n : K)

/-- zm_opt_lp_pdip.c:251-252: the step that is taken. -/
def damped (s : K) : K := if 99 / 100 * s > 1 then 1 else 99 / 100 * s

/-- How the loop has been left. The function does not report it. -/
inductive Exit
  | resid
  | stall
  | limit
  deriving DecidableEq

/-- One turn of the loop of `zLPSolvePDIP_PC`, zm_opt_lp_pdip.c:238-257: the next point, or the way out.  A gap of zero is a divisor in
`_zLP_PDIP_PCCorrect`.  `dy` holds zeros or a former direction; it does not matter (`zLESolveLU` overwrites it). -/
def turn (P : Prob K) (st : St K) : Res (St K × Option Exit) :=
  if (∀ i < P.m, zIsTol (v1 P st i) P.tol = true) ∧ (∀ j < P.n, zIsTol (v2 P st j) P.tol = true) ∧ zIsTol (gap P st) P.tol = true then .ok (st, some .resid)
  else
    (luDecomp P st).bind fun lu =>
    let D := eqLU P st lu (v1 P st) (v2 P st) (v3 st) (fun _ => 0)
    let ap := step P.etol P.n st.x D.dx
    let ad := step P.etol P.n st.z D.dz
    if zIsTol ap P.etol ∧ zIsTol ad P.etol then .ok (st, some .stall)
    else if gap P st = 0 then .ub
    else
      let D2 := eqLU P st lu (fun _ => 0) (fun _ => 0) (correct P st D ap ad (gap P st)) (fun _ => 0)
      let dx := fun j => D.dx j + D2.dx j
      let dy := fun i => D.dy i + D2.dy i
      let dz := fun j => D.dz j + D2.dz j
      let ap := damped (step P.etol P.n st.x dx)
      let ad := damped (step P.etol P.n st.z dz)
      if zIsTol ap P.etol ∧ zIsTol ad P.etol then .ok (st, some .stall)
      else .ok ({ x := fun j => st.x j + ap * dx j, y := fun i => st.y i + ad * dy i, z := fun j => st.z j + ad * dz j }, none)

/-- The loop of `zLPSolvePDIP_PC`, zm_opt_lp_pdip.c:237-258. -/
def loop (P : Prob K) : Nat → St K → Res (St K × Exit)
  | 0, st => .ok (st, .limit)
  | k+1, st => (turn P st).bind fun r =>
    match r.2 with
    | some e => .ok (r.1, e)
    | none => loop P k r.1

/-- The answer: the vector, the cost, and, for the theorems only, the last point and the way out of the loop.  The return value is true. -/
structure Ans (K : Type*) where
  x : Nat → K
  cost : K
  last : St K
  exit : Exit

/-- `zLPSolvePDIP_PC`, zm_opt_lp_pdip.c:224-270; `limit` is the number of turns (10000). -/
def zLPSolvePDIP_PC (P : Prob K) (limit : Nat) (x0 : Nat → K) : Res (Ans K) :=
  (init P x0).bind fun st =>
  (loop P limit st).bind fun r =>
  let x := fun j => if zIsTol (r.1.x j) P.tol then 0 else r.1.x j
  .ok { x := x, cost := inner P.n x P.c, last := r.1, exit := r.2 }

end Zm.PDIP
