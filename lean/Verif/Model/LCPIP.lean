import Verif.Model.LEGen

/-!
# Interior-point method for linear complementarity problems (zm_opt_lcp_ip.c)

Find `w, z ≥ 0` with `w = M z + q` and `w'z = 0`.  Sizes agree and allocations are taken to succeed; `w` is given.  A result that is not a finite
number is rendered as `ub`.  `tol` is the tolerance of the test of convergence and of the clean-up, `etol` that of the elimination (both are `zTOL`).
-/

namespace Zm.LCPIP
open Zm LE Misc
variable {K : Type*} [Field K] [LinearOrder K]

/-- The problem and the settings. -/
structure Prob (K : Type*) where
  n : Nat
  mat : Nat → Nat → K
  q : Nat → K
  tol : K
  etol : K
  sqrt : K → K

/-- The point, the centre `t` and the permutation that the elimination leaves behind. -/
structure St (K : Type*) where
  w : Nat → K
  z : Nat → K
  t : K
  idx : Nat → Nat

/-- `_zLCPIP_PCIni`, zm_opt_lcp_ip.c:55-62. -/
def ini (P : Prob K) : Res (St K) :=
  if P.n = 0 then .ub
  else
    let w : Nat → K := fun _ => 100 / (P.n : K)
    .ok { w := w, z := w, t := inner P.n w w / ((P.n : K) + 1 / 4 * P.sqrt (P.n : K)), idx := fun i => i }

/-- The residual of `_zLCPIP_PCErr`, zm_opt_lcp_ip.c:65-73. -/
def res (P : Prob K) (st : St K) : Nat → K := fun i => mulVec P.n P.n P.mat st.z (fun _ => 0) i + P.q i - st.w i

/-- The gap of `_zLCPIP_PCErr`, zm_opt_lcp_ip.c:72. -/
def gap (P : Prob K) (st : St K) : K := inner P.n st.w st.z

/-- The matrix of `_zLCPIP_PCGrad`, zm_opt_lcp_ip.c:80-83. -/
def grad (P : Prob K) (st : St K) : Nat → Nat → K := fun i j => if i = j then P.mat i j * st.z i + st.w i else P.mat i j * st.z i

/-- `_zLCPIP_PCGrad`, zm_opt_lcp_ip.c:76-85: `dz` and the permutation. -/
def solve (P : Prob K) (st : St K) (b : Nat → K) : Res ((Nat → K) × (Nat → Nat)) :=
  gaussSolveIdx P.etol P.n st.idx (grad P st) b (fun _ => 0)

/-- `_zLCPIP_PCPred`, zm_opt_lcp_ip.c:88-97: `dw`, `dz` and the permutation. -/
def pred (P : Prob K) (st : St K) : Res ((Nat → K) × (Nat → K) × (Nat → Nat)) :=
  (solve P st fun i => - ((st.w i + res P st i) * st.z i)).bind fun r =>
  .ok (fun i => mulVec P.n P.n P.mat r.1 (fun _ => 0) i + res P st i, r.1, r.2)

/-- `_zLCPIP_PCCorr`, zm_opt_lcp_ip.c:100-110: `dw`, `dz` and the permutation. -/
def corr (P : Prob K) (st : St K) : Res ((Nat → K) × (Nat → K) × (Nat → Nat)) :=
  (solve P st fun i => st.t - st.w i * st.z i).bind fun r =>
  .ok (fun i => mulVec P.n P.n P.mat r.1 (fun _ => 0) i, r.1, r.2)

/-- The distance of the products from the centre, zm_opt_lcp_ip.c:118-120. -/
def off (st : St K) : Nat → K := fun i => st.w i * st.z i - st.t

/-- `k2` of `_zLCPIP_PCStep`, zm_opt_lcp_ip.c:122. -/
def k2 (P : Prob K) (st : St K) (dw dz : Nat → K) : K := inner P.n (off st) (fun i => dw i * dz i)

/-- `_zLCPIP_PCStep`, zm_opt_lcp_ip.c:113-131. -/
def stepLen (P : Prob K) (st : St K) (dw dz : Nat → K) : Res K :=
  let k2 := k2 P st dw dz
  if k2 = 0 then .ub
  else
    let k1 := ((1 / 2 * st.t) * (1 / 2 * st.t) - inner P.n (off st) (off st)) / k2
    let r := 1 + k1 / k2 * inner P.n (fun i => dw i * dz i) (fun i => dw i * dz i)
    if r < 0 then .ub
    else
      let a := k1 / (1 + P.sqrt r)
      if a < 0 ∧ -4 < a then .fail
      else if a = 0 then .ub
      else .ok (2 / (1 + P.sqrt (1 + 4 / a)))

/-- One turn of the loop of `zLCPSolveIP`, zm_opt_lcp_ip.c:165-180: the next point, whether the loop is left, and (for the theorems only) whether `k2` was
positive. -/
def turn (P : Prob K) (st : St K) : Res (St K × Bool × Bool) :=
  if (∀ i < P.n, zIsTol (res P st i) P.tol = true) ∧ zIsTol (gap P st) P.tol = true then .ok (st, true, true)
  else
    (pred P st).bind fun d =>
    (stepLen P st d.1 d.2.1).bind fun a =>
    let st1 : St K := { w := fun i => st.w i + a * d.1 i, z := fun i => st.z i + a * d.2.1 i, t := st.t * (1 - a), idx := d.2.2 }
    (corr P st1).bind fun e =>
    .ok ({ w := fun i => st1.w i + e.1 i, z := fun i => st1.z i + e.2.1 i, t := st1.t, idx := e.2.2 }, false, decide (0 < k2 P st d.1 d.2.1))

/-- The loop of `zLCPSolveIP`, zm_opt_lcp_ip.c:164-180: the last point, whether the loop was left by the `break`, and whether `k2` was positive in all
turns. -/
def loop (P : Prob K) : Nat → St K → Res (St K × Bool × Bool)
  | 0, st => .ok (st, false, true)
  | k+1, st => (turn P st).bind fun r =>
    if r.2.1 then .ok (r.1, true, true)
    else (loop P k r.1).bind fun s => .ok (s.1, s.2.1, r.2.2 && s.2.2)

/-- The answer; `done` and `good` are not reported to the caller. -/
structure Ans (K : Type*) where
  w : Nat → K
  z : Nat → K
  last : St K
  done : Bool
  good : Bool

/-- `zLCPSolveIP`, zm_opt_lcp_ip.c:135-190; `limit` is the number of turns (10000).  `ok` is the return value true, `fail` is false. -/
def zLCPSolveIP (P : Prob K) (limit : Nat) : Res (Ans K) :=
  (ini P).bind fun st =>
  (loop P limit st).bind fun r =>
  .ok { w := r.1.w, z := fun i => if zIsTol (r.1.z i) P.tol then 0 else r.1.z i, last := r.1, done := r.2.1, good := r.2.2 }

end Zm.LCPIP
