import Verif.Model.LP
import Verif.Model.LCP
import Verif.Model.LEMore

/-!
# Active set method for quadratic programming (zm_opt_qp_asm.c)

Minimise `x'Qx/2 + c'x` subject to `A x ≥ b`, with `n` variables and `m` constraints.  `zQPSolveASM` allocates its working space; allocations
are taken to succeed.  The indices `ia` and `in` are lists.  `zIndexInsertVal` belongs to ZEDA, which is not part of the repository: it is the
parameter `ins`, of which the theorems assume that it adds one element somewhere in the list; `zIndexRemoveVal` removes the first occurrence.

`Tst` holds the comparisons of the simplex method with the tolerance, `tol` is the tolerance of the other functions (`zTOL`).
-/

namespace Zm.QPASM
open Zm LE LP Misc
variable {K : Type*} [Field K] [LinearOrder K]

/-- The problem and the settings. -/
structure Prob (K : Type*) where
  n : Nat
  m : Nat
  q : Nat → Nat → K
  c : Nat → K
  a : Nat → Nat → K
  b : Nat → K
  tst : Tst K
  tol : K
  sqrt : K → K
  ins : List Nat → Nat → List Nat

/-- What `_zQPASMInit` prepares, zm_opt_qp_asm.c:45-49. -/
structure Pre (K : Type*) where
  qinv : Nat → Nat → K
  aqinvat : Nat → Nat → K
  qinvc : Nat → K
  aqinvcb : Nat → K

/-- The part of the workspace that changes: the answer, the feasible point, the active set, the others, and the multipliers. -/
structure St (K : Type*) where
  x : Nat → K
  xtmp : Nat → K
  ia : List Nat
  nin : List Nat
  lam : Nat → K

/-- `_zQPASMInit`, zm_opt_qp_asm.c:26-51. -/
def init (P : Prob K) : Res (Pre K) :=
  (zMatInv P.tol P.n P.q).bind fun qi =>
  let qinv := unfin P.n qi
  let qinvc := mulVec P.n P.n qinv P.c (fun _ => 0)
  .ok { qinv := qinv
        aqinvat := zMulMatMatMatTNC P.m P.n P.a qinv
        qinvc := qinvc
        aqinvcb := addTo P.m (mulVec P.m P.n P.a qinvc (fun _ => 0)) P.b }

/-- The matrix `(A, -A, -I)`.  The tableau of zm_opt_qp_asm.c:85-108 is that of `zLPTableauCreate` for this matrix: the rows with a negative
right-hand side are multiplied by -1, and then an artificial variable with the cost one is appended for each row. -/
def extMat (n m : Nat) (a : Nat → Nat → K) : Nat → Nat → K := fun i j =>
  if j < n then a i j else if j < 2 * n then - a i (j - n) else if j = 2 * n + i then -1 else 0

/-- The loop over the basic variables, zm_opt_qp_asm.c:121-136, on the point and the two index sets.  The value of the basic variable number
`i` is read from the place `i` of the right-hand side (lines 123 and 126), not from the place `ir[i]`. -/
def baseStep (P : Prob K) (t : Tab K) (i : Nat) (s : (Nat → K) × List Nat × List Nat) : Res ((Nat → K) × List Nat × List Nat) :=
  let v := t.ib i
  if v < P.n then .ok (set1 s.1 v (t.b i), s.2)
  else if v < 2 * P.n then .ok (set1 s.1 (v - P.n) (- t.b i), s.2)
  else if v - 2 * P.n < P.m then .ok (s.1, s.2.1.erase (v - 2 * P.n), P.ins s.2.2 (v - 2 * P.n))
  else .fail

/-- `_zQPASMInitBase`, zm_opt_qp_asm.c:71-138.  `phase2Start` is the tableau after lines 109-114; the costs, which are not used any more, are
set to zero. -/
def initBase (P : Prob K) : Res (St K) :=
  match phase2Start P.tst P.m (2 * P.n + P.m) (extMat P.n P.m P.a) P.b (fun _ => 0) with
  | .ok t =>
    (forUpM 0 t.r (baseStep P t) ((fun _ => 0), (List.range t.r).map t.ir, [])).bind fun s =>
    .ok { x := fun _ => 0, xtmp := s.1, ia := s.2.1, nin := s.2.2, lam := fun _ => 0 }
  | .fail => .fail
  | .ub => .ub

/-- The second half of `_zQPASMSolveEq`, zm_opt_qp_asm.c:158-166.  `_s` was allocated with `m` places, and the loop writes `n`. -/
def solveX (P : Prob K) (W : Pre K) (ia : List Nat) (lam : Nat → K) : Res (Nat → K) :=
  if P.m < P.n then .ub
  else
    let s := forUp 0 P.n (fun i s => forUp 0 ia.length (fun j s => set1 s i (s i + P.a (ia.getD j 0) i * lam j)) (set1 s i 0)) (fun _ => 0)
    let x := mulVec P.n P.n W.qinv s (fun _ => 0)
    .ok fun i => x i - W.qinvc i

/-- The multipliers, zm_opt_qp_asm.c:145-157; the result of `zLESolveGaussDST` is not examined, so that the old multipliers are used if it
fails. -/
def solveLam (P : Prob K) (W : Pre K) (ia : List Nat) (lam : Nat → K) : Res (Nat → K) :=
  match gaussSolve P.tol ia.length (fun i j => W.aqinvat (ia.getD i 0) (ia.getD j 0)) (fun i => W.aqinvcb (ia.getD i 0)) lam with
  | .ok lam => .ok lam
  | .fail => .ok lam
  | .ub => .ub

/-- `_zQPASMSolveEq`, zm_opt_qp_asm.c:141-167. -/
def solveEq (P : Prob K) (W : Pre K) (st : St K) : Res (St K) :=
  (solveLam P W st.ia st.lam).bind fun lam =>
  (solveX P W st.ia lam).bind fun x => .ok { st with x := x, lam := lam }

/-- The comparison of zm_opt_qp_asm.c:183-186; `none` is `dmin = HUGE_VAL`. -/
def addMin (d : K) (i : Nat) : Option (K × Nat) → Option (K × Nat)
  | none => some (d, i)
  | some (dmin, imin) => if d < dmin then some (d, i) else some (dmin, imin)

/-- The loop of `_zQPASMAddEq`, zm_opt_qp_asm.c:176-187.  The divisor is not tiny, hence not zero for a tolerance that is not negative. -/
def addScan (P : Prob K) (x xtmp : Nat → K) : List Nat → Option (K × Nat) → Option (K × Nat)
  | [], o => o
  | i :: l, o =>
    let ax := inner P.n (P.a i) x
    if P.b i ≤ ax then addScan P x xtmp l o
    else
      let axtmp := inner P.n (P.a i) xtmp
      if zIsTol (ax - axtmp) P.tol then addScan P x xtmp l o
      else addScan P x xtmp l (addMin ((P.b i - axtmp) / (ax - axtmp)) i o)

/-- `_zQPASMAddEq`, zm_opt_qp_asm.c:170-192; `none` is the return value false. -/
def addEq (P : Prob K) (st : St K) : Option (St K) :=
  match addScan P st.x st.xtmp st.nin none with
  | none => none
  | some (dmin, imin) =>
    some { st with nin := st.nin.erase imin, ia := P.ins st.ia imin, xtmp := fun j => st.xtmp j + dmin * (st.x j - st.xtmp j) }

/-- State of the loop of `_zQPASMDelEq`: `ic`, `ia`, `in`, `is_violated`. -/
structure Del where
  ic : Nat
  ia : List Nat
  nin : List Nat
  viol : Bool

/-- The loop of `_zQPASMDelEq`, zm_opt_qp_asm.c:200-208. -/
def delLoop (P : Prob K) (lam : Nat → K) (k : Nat) (s : Del) : Del :=
  forUp 0 k (fun i s =>
    if lam i < 0 then { s with ia := s.ia.eraseIdx s.ic, nin := P.ins s.nin (s.ia.getD s.ic 0), viol := true }
    else { s with ic := s.ic + 1 }) s

/-- `_zQPASMDelEq`, zm_opt_qp_asm.c:195-210; `none` is the return value false. -/
def delEq (P : Prob K) (st : St K) : Option (St K) :=
  let s := delLoop P st.lam st.ia.length ⟨0, st.ia, st.nin, false⟩
  if s.viol then some { st with ia := s.ia, nin := s.nin } else none

/-- The inner loop of `zQPSolveASM`, zm_opt_qp_asm.c:245-247, with at most as many turns as the first argument says; `none` if it goes on. -/
def innerLoop (P : Prob K) (W : Pre K) : Nat → St K → Res (Option (St K))
  | 0, _ => .ok none
  | k+1, st =>
    (solveEq P W st).bind fun st =>
    match addEq P st with
    | some st => innerLoop P W k st
    | none => .ok (some st)

/-- The outer loop of `zQPSolveASM`, zm_opt_qp_asm.c:244-248, with at most as many turns as the third argument says; `none` if it goes on.  Each
turn of the inner loop that is not the last moves a constraint to the active set, so that `m + 1` turns are enough (`innerLoop_ends`). -/
def outerLoop (P : Prob K) (W : Pre K) : Nat → St K → Res (Option (St K))
  | 0, _ => .ok none
  | k+1, st =>
    (innerLoop P W (P.m + 1) st).bind fun o =>
    match o with
    | none => .ok none
    | some st =>
      match delEq P st with
      | some st => outerLoop P W k st
      | none => .ok (some st)

/-- `_zQPASMCheck`, zm_opt_qp_asm.c:213-233, and `zMatIsSymmetric`, zm_mat.c:478-487, for a square matrix and vectors and matrices whose sizes
agree. -/
def check (P : Prob K) : Bool :=
  decide (∀ i < P.n, ∀ j < P.n, i < j → P.q i j = P.q j i) &&
  match zMatDecompCholesky P.tol P.sqrt P.n P.q with
  | .ok (_, _, rank) => decide (P.n ≤ rank)
  | _ => false

/-- `zQPSolveASM`, zm_opt_qp_asm.c:236-254, with at most `fuel` turns of the outer loop: the answer and the cost, `none` if the loop goes on. -/
def zQPSolveASM (P : Prob K) (fuel : Nat) : Res (Option ((Nat → K) × K)) :=
  if check P then
    (init P).bind fun W =>
    (initBase P).bind fun st =>
    (outerLoop P W fuel st).bind fun o =>
    .ok (o.map fun st => (st.x, LCP.zQuadraticValue P.n P.q P.c st.x))
  else .fail

end Zm.QPASM
