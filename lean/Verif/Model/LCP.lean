import Verif.Model.LP
import Verif.Model.Stat

/-!
# Model of the linear complementarity solver and of quadratic programming: zm_opt_lcp_lemke.c and zm_opt_qp.c

`double` is an ordered field `K`; the comparison of line 115 of zm_opt_lcp_lemke.c with the tolerance is the parameter `skip` of the comparisons of
`Model/LP.lean`.  Allocations succeed and the checks of sizes at the beginning of the API functions have passed.
-/

namespace Zm.LCP
open Zm Zm.LP
variable {K : Type*} [Field K] [LinearOrder K] [IsStrictOrderedRing K]

/-- `_zLemke`, zm_opt_lcp_lemke.c:10-15; the index `in` is a list. -/
structure Lemke (K : Type*) where
  tab : Nat → Nat → K
  p : Nat → K
  ib : Nat → Nat
  nb : List Nat
  act : Nat

/-- `_zLemkeCreate`, zm_opt_lcp_lemke.c:39-62; the closed form of what the loops write. -/
def create (n : Nat) (m : Nat → Nat → K) (q : Nat → K) : Lemke K where
  tab := fun i j => if j < n then - m i j else if j = i + n then 1 else if j = 2 * n then -1 else 0
  p := q
  ib := fun i => n + i
  nb := List.range n
  act := 2 * n

/-- The body of the loop over the other rows of `_zLemkeSweep`, zm_opt_lcp_lemke.c:79-87.  Line 85 has `=-` in place of `-=`. -/
def sweepRow (l : Lemke K) (p : Nat) (i : Nat) (s : (Nat → Nat → K) × (Nat → K)) : (Nat → Nat → K) × (Nat → K) :=
  if i = p then s
  else
    let ap := s.1 i l.act
    let tab := subRow l.nb p i ap s.1
    let tab := set2 tab i (l.ib p) (- (tab p (l.ib p) * ap))
    let tab := set2 tab i l.act 0
    (tab, set1 s.2 i (s.2 i - s.2 p * ap))

/-- `_zLemkeSweep`, zm_opt_lcp_lemke.c:65-89; undefined for a zero pivot. -/
def sweep (n : Nat) (l : Lemke K) (p : Nat) : Res (Lemke K) :=
  let ap := l.tab p l.act
  if ap = 0 then .ub
  else
    let tab := divRow l.nb p ap l.tab
    let tab := set2 tab p (l.ib p) (tab p (l.ib p) / ap)
    let tab := set2 tab p l.act 1
    let q := set1 l.p p (l.p p / ap)
    let s := forUp 0 n (sweepRow l p) (tab, q)
    .ok { l with tab := s.1, p := s.2 }

/-- The loop of `_zLemkeSwap` that replaces the first occurrence of the new active variable, zm_opt_lcp_lemke.c:100-104. -/
def replaceFirst (old new : Nat) : List Nat → List Nat
  | [] => []
  | v :: l => if v = old then new :: l else v :: replaceFirst old new l

/-- `_zLemkeSwap`, zm_opt_lcp_lemke.c:92-106. -/
def swap (n : Nat) (l : Lemke K) (p : Nat) : Lemke K × Bool :=
  let ib := l.ib p
  let act := (ib + n) % (2 * n)
  ({ l with ib := set1 l.ib p l.act, act := act, nb := replaceFirst act ib l.nb }, decide (ib = 2 * n))

/-- The loop of `_zLemkePivot`, zm_opt_lcp_lemke.c:114-122: the number of rows left, the counter and the best so far. -/
def pivotScan (tst : Tst K) (l : Lemke K) : Nat → Nat → Option (K × Nat) → Option Nat
  | 0, _, best => best.map Prod.snd
  | k+1, i, best =>
    let a := l.tab i l.act
    if tst.skip a then pivotScan tst l k (i + 1) best
    else pivotScan tst l k (i + 1) (npStep (l.p i / a) i best)

/-- `_zLemkePivot`, zm_opt_lcp_lemke.c:109-124. -/
def pivot (tst : Tst K) (n : Nat) (l : Lemke K) : Option Nat := pivotScan tst l n 0 none

/-- `_zLemkeIter`, zm_opt_lcp_lemke.c:127-139.  The loop has no bound: when the given number of turns does not suffice, the outcome is `ub`. -/
def iter (tst : Tst K) (n : Nat) : Nat → Lemke K → Res (Lemke K)
  | 0, _ => .ub
  | fuel+1, l =>
    match pivot tst n l with
    | none => .fail
    | some p =>
      match sweep n l p with
      | .ok l =>
        match swap n l p with
        | (l, true) => .ok l
        | (l, false) => iter tst n fuel l
      | .fail => .fail
      | .ub => .ub

/-- `_zLemkeInit`, zm_opt_lcp_lemke.c:161-170. -/
def init (n : Nat) (l : Lemke K) : Res (Lemke K × Bool) :=
  let m := Stat.zDataMin l.p n
  if m.1 ≥ 0 then .ok (l, true)
  else
    match sweep n l m.2 with
    | .ok l => .ok ((swap n l m.2).1, false)
    | .fail => .fail
    | .ub => .ub

/-- `_zLemkeAnswer`, zm_opt_lcp_lemke.c:142-158: `w` and `z`. -/
def answer (n : Nat) (l : Lemke K) : (Nat → K) × (Nat → K) :=
  (forUp 0 n (fun i w => if n ≤ l.ib i ∧ l.ib i - n < n then set1 w (l.ib i - n) (l.p i) else w) (fun _ => 0),
   forUp 0 n (fun i z => if l.ib i < n then set1 z (l.ib i) (l.p i) else z) (fun _ => 0))

/-- `zLCPSolveLemke`, zm_opt_lcp_lemke.c:173-198: `w` and `z`. -/
def zLCPSolveLemke (tst : Tst K) (fuel n : Nat) (m : Nat → Nat → K) (q : Nat → K) : Res ((Nat → K) × (Nat → K)) :=
  match init n (create n m q) with
  | .ok (l, true) => .ok (answer n l)
  | .ok (l, false) =>
    match iter tst n fuel l with
    | .ok l => .ok (answer n l)
    | .fail => .fail
    | .ub => .ub
  | .fail => .fail
  | .ub => .ub

/-! ## Quadratic programming -/

/-- `zQuadraticValue`, zm_opt_qp.c:10-34. -/
def zQuadraticValue (n : Nat) (q : Nat → Nat → K) (c x : Nat → K) : K :=
  forUp 0 n (fun i val => forUp 0 n (fun j val => val + 1/2 * q i j * x i * x j) val + c i * x i) 0

/-- `_zQP2LCP`, zm_opt_qp.c:37-60, for `n` variables and `m` constraints. -/
def qp2lcp (n m : Nat) (q : Nat → Nat → K) (c : Nat → K) (a : Nat → Nat → K) (b : Nat → K) : (Nat → Nat → K) × (Nat → K) :=
  let lm : Nat → Nat → K := fun i j => if i < n ∧ j < n then q i j else 0
  let lm : Nat → Nat → K := fun i j => if n ≤ i ∧ i < n + m ∧ j < n then a (i - n) j else lm i j
  let lm := forUp 0 m (fun i lm => forUp 0 n (fun j lm => set2 lm j (i + n) (- a i j)) lm) lm
  let lq : Nat → K := fun i => if i < n then c i else 0
  let lq := forUp 0 m (fun i lq => set1 lq (n + i) (- b i)) lq
  (lm, lq)

/-- `zQPSolveLemke`, zm_opt_qp.c:63-84: the answer and its value. -/
def zQPSolveLemke (tst : Tst K) (fuel n m : Nat) (q : Nat → Nat → K) (c : Nat → K) (a : Nat → Nat → K) (b : Nat → K) : Res ((Nat → K) × K) :=
  let l := qp2lcp n m q c a b
  match zLCPSolveLemke tst fuel (n + m) l.1 l.2 with
  | .ok (_, z) => let ans : Nat → K := fun i => if i < n then z i else 0; .ok (ans, zQuadraticValue n q c ans)
  | .fail => .fail
  | .ub => .ub

/-- One turn of `zCGSolve`, zm_opt_qp.c:107-114, on `(ans, g, d)`; the flag tells that the loop is left.  Undefined if `d` is not seen by `q`. -/
def cgStep (tol : K) (n : Nat) (q : Nat → Nat → K) (s : (Nat → K) × (Nat → K) × (Nat → K)) : Res (((Nat → K) × (Nat → K) × (Nat → K)) × Bool) :=
  let (ans, g, d) := s
  let dot (u v : Nat → K) : K := forUp 0 n (fun i r => r + u i * v i) 0
  let qd : Nat → K := fun i => forUp 0 n (fun j r => r + q i j * d j) 0
  let sv := dot d qd
  if sv = 0 then .ub
  else
    let a := dot d g / sv
    let ans : Nat → K := fun i => ans i + -a * d i
    let g : Nat → K := fun i => g i + -a * qd i
    if ∀ i < n, |g i| ≤ tol then .ok ((ans, g, d), true)
    else
      let b := dot g qd / sv
      .ok ((ans, g, fun i => g i + b * d i), false)

/-- The loop of `zCGSolve`, zm_opt_qp.c:106-115. -/
def cgLoop (tol : K) (n : Nat) (q : Nat → Nat → K) : Nat → (Nat → K) × (Nat → K) × (Nat → K) → Res (Nat → K)
  | 0, s => .ok s.1
  | k+1, s =>
    match cgStep tol n q s with
    | .ok (s, true) => .ok s.1
    | .ok (s, false) => cgLoop tol n q k s
    | .fail => .fail
    | .ub => .ub

/-- `zCGSolve`, zm_opt_qp.c:90-122, after `ZITERINIT`: the point the iteration ends at.  (The sign conventions of the code: `g` is the gradient and
`b` is added, so the new direction is `g + b d` with `b = (g, q d) / s`.) -/
def zCGSolve (tol : K) (n : Nat) (q : Nat → Nat → K) (c ans : Nat → K) (iter : Nat) : Res (Nat → K) :=
  let g : Nat → K := fun i => forUp 0 n (fun j r => r + q i j * ans j) 0 + c i
  if ∀ i < n, |g i| ≤ tol then .ok ans
  else cgLoop tol n q iter (ans, g, g)

end Zm.LCP
