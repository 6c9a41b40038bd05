import Verif.Base.Res
import Mathlib.Algebra.Order.Field.Basic
import Mathlib.Order.WithBot

/-!
# Model of the linear programs of two variables: zm_opt_lp_megiddodyer.c

`double` is an ordered field `K` with `HUGE_VAL` and `-HUGE_VAL` added where the code uses them (`Ext K`).  `zTOL` is the parameter `tol`.
A list is a Lean list from its head to its tail; `zListForEach` runs from the tail to the head (see DESIGN.md), hence the `reverse`s.  A pointer to a
cell of a list of constraints is the cell itself with the serial number of the constraint, so that purging a cell is erasing it.  Allocations
succeed.  `zLPMegiddoDyerConstraintPairListQuickMedian` is generated by ZEDA: a parameter `med` that gives a pair and the reordered list.
The functions under `DEBUG` are not modelled.
-/

namespace Zm.MD
open Zm
variable {K : Type*} [Field K] [LinearOrder K] [IsStrictOrderedRing K]

/-- A `double` that may be `HUGE_VAL` or `-HUGE_VAL`. -/
abbrev Ext (K : Type*) := WithBot (WithTop K)

/-- A finite value. -/
def fin (a : K) : Ext K := ((a : WithTop K) : WithBot (WithTop K))

/-- `e + t`; the infinities absorb. -/
def shift (e : Ext K) (t : K) : Ext K := WithBot.map (WithTop.map (· + t)) e

/-- The finite value, if it is one. -/
def real? : Ext K → Option K
  | some (some a) => some a
  | _ => none

/-- `zLPMegiddoDyerConstraint` and its cell, zm_opt_lp.h: the line y = m x + y0.  `id` stands for the address of the cell. -/
structure Cell (K : Type*) where
  id : Nat
  m : K
  y0 : K
deriving DecidableEq

/-- `zLPMegiddoDyerConstraintPair`, zm_opt_lp.h: two constraints and the intersection of their lines. -/
structure Pair (K : Type*) where
  c1 : Cell K
  c2 : Cell K
  x : K
  y : K

/-- `zLPMegiddoDyer`, zm_opt_lp.h.  `pos`, `neg`, `det` are the three bits of `feasibility_flag`; `next` numbers the constraints. -/
structure Prob (K : Type*) where
  upper : List (Cell K)
  lower : List (Cell K)
  upperPool : List (Cell K)
  lowerPool : List (Cell K)
  upperPair : List (Pair K)
  lowerPair : List (Pair K)
  c1 : K
  c2 : K
  xmin : Ext K
  xmax : Ext K
  muMin : Ext K
  muMax : Ext K
  mlMin : Ext K
  mlMax : Ext K
  pos : Bool
  neg : Bool
  det : Bool
  next : Nat

/-- `_zLPMegiddoDyerConstraintVal`, zm_opt_lp_megiddodyer.c:11-14. -/
def val (c : Cell K) (x : K) : K := c.m * x + c.y0

/-- `_zLPMegiddoDyerConstraintIntersection`, zm_opt_lp_megiddodyer.c:23-31. -/
def inter (tol : K) (a b : Cell K) : Option (K × K) :=
  if |a.m - b.m| ≤ tol then none
  else some (-(a.y0 - b.y0) / (a.m - b.m), (a.m * b.y0 - b.m * a.y0) / (a.m - b.m))

/-- `_zLPMegiddoDyerConstraintListVal`, zm_opt_lp_megiddodyer.c:35-44, with `zIsLess` and `HUGE_VAL`: `_zLPMegiddoDyerUpperboundVal`, 236-239. -/
def upperVal (l : List (Cell K)) (x : K) : Ext K :=
  l.reverse.foldl (fun v c => if fin (val c x) < v then fin (val c x) else v) ⊤

/-- `_zLPMegiddoDyerConstraintListVal`, zm_opt_lp_megiddodyer.c:35-44, with `zIsGreater` and `-HUGE_VAL`: `_zLPMegiddoDyerLowerboundVal`, 240-243. -/
def lowerVal (l : List (Cell K)) (x : K) : Ext K :=
  l.reverse.foldl (fun v c => if fin (val c x) > v then fin (val c x) else v) ⊥

/-- `zEqual( tmp, val, zTOL )`: false for an infinite `val`. -/
def equal (tol a : K) (v : Ext K) : Bool :=
  match real? v with
  | some b => decide (|a - b| ≤ tol)
  | none => false

/-- What `_zLPMegiddoDyerConstraintListValGrad` computes: the value, `*m_min` and `*m_max`. -/
structure VG (K : Type*) where
  v : Ext K
  mmin : Ext K
  mmax : Ext K

/-- The body of the loop of `_zLPMegiddoDyerConstraintListValGrad`, zm_opt_lp_megiddodyer.c:54-64. -/
def gradStep (tol : K) (cmp : Ext K → Ext K → Bool) (x : K) (g : VG K) (c : Cell K) : VG K :=
  if equal tol (val c x) g.v then
    { g with mmax := if fin c.m > g.mmax then fin c.m else g.mmax
             mmin := if fin c.m < g.mmin then fin c.m else g.mmin }
  else if cmp (fin (val c x)) g.v then ⟨fin (val c x), fin c.m, fin c.m⟩
  else g

/-- `_zLPMegiddoDyerConstraintListValGrad`, zm_opt_lp_megiddodyer.c:46-66. -/
def valGrad (tol : K) (cmp : Ext K → Ext K → Bool) (init : Ext K) (l : List (Cell K)) (x : K) : VG K :=
  l.reverse.foldl (gradStep tol cmp x) ⟨init, ⊤, ⊥⟩

/-- `_zLPMegiddoDyerUpperboundValGrad`, zm_opt_lp_megiddodyer.c:244-247. -/
def upperGrad (tol : K) (l : List (Cell K)) (x : K) : VG K := valGrad tol (fun a b => decide (a < b)) ⊤ l x

/-- `_zLPMegiddoDyerLowerboundValGrad`, zm_opt_lp_megiddodyer.c:248-251. -/
def lowerGrad (tol : K) (l : List (Cell K)) (x : K) : VG K := valGrad tol (fun a b => decide (a > b)) ⊥ l x

/-- `_zLPMegiddoDyerConstraintPairListCreate`, zm_opt_lp_megiddodyer.c:70-101, on the pool, the list of constraints and the list of pairs.  The
first argument bounds the number of turns of the `while` loop, each of which makes the pool smaller. -/
def pairUp (tol : K) (rule : K → K → Bool) : Nat → List (Cell K) → List (Cell K) → List (Pair K) → List (Cell K) × List (Cell K) × List (Pair K)
  | n + 1, a :: b :: pool, list, pairs =>
    match inter tol a b with
    | none => if rule a.y0 b.y0 then pairUp tol rule n (b :: pool) (list.erase a) pairs else pairUp tol rule n (a :: pool) (list.erase b) pairs
    | some (x, y) => pairUp tol rule n pool list (⟨a, b, x, y⟩ :: pairs)
  | _, pool, list, pairs => (pool, list, pairs)

/-- `zLPMegiddoDyerInit`, zm_opt_lp_megiddodyer.c:125-139. -/
def zLPMegiddoDyerInit : Prob K where
  upper := []
  lower := []
  upperPool := []
  lowerPool := []
  upperPair := []
  lowerPair := []
  c1 := 0
  c2 := 0
  xmin := ⊥
  xmax := ⊤
  muMin := ⊤
  muMax := ⊥
  mlMin := ⊤
  mlMax := ⊥
  pos := false
  neg := false
  det := false
  next := 0

/-- `zLPMegiddoDyerSetCostCoefficient`, zm_opt_lp_megiddodyer.c:153-161.  The second member is the value returned. -/
def zLPMegiddoDyerSetCostCoefficient (tol : K) (p : Prob K) (c1 c2 : K) : Prob K × Bool :=
  if |c2| ≤ tol then ({ p with c2 := c2 }, false) else ({ p with c2 := c2, c1 := c1 }, true)

/-- The first part of `zLPMegiddoDyerAddConstraint`, zm_opt_lp_megiddodyer.c:176-195: a constraint on the first variable only. -/
def addVertical (p : Prob K) (a1 b : K) : Prob K × Bool :=
  let x := b / a1
  if a1 < 0 ∧ fin x > p.xmin then
    if fin x > p.xmax then ({ p with xmin := fin x }, false) else ({ p with xmin := fin x, det := true }, true)
  else if a1 > 0 ∧ fin x < p.xmax then
    if fin x < p.xmin then ({ p with xmax := fin x }, false) else ({ p with xmax := fin x, det := true }, true)
  else ({ p with det := true }, true)

/-- `if( m > max ) max = m;` -/
def emax (m : K) (e : Ext K) : Ext K := if fin m > e then fin m else e
/-- `if( m < min ) min = m;` -/
def emin (m : K) (e : Ext K) : Ext K := if fin m < e then fin m else e

/-- The insertion of a line, zm_opt_lp_megiddodyer.c:208-223: above (`a2 > 0` after the division by the coefficient of the cost) or below. -/
def addLine (tol : K) (p : Prob K) (up : Bool) (m y0 : K) : Prob K :=
  let c : Cell K := ⟨p.next, m, y0⟩
  let p := { p with det := p.det || !decide (|m| ≤ tol), next := p.next + 1 }
  if up then { p with upper := c :: p.upper, upperPool := c :: p.upperPool, muMax := emax m p.muMax, muMin := emin m p.muMin }
  else { p with lower := c :: p.lower, lowerPool := c :: p.lowerPool, mlMax := emax m p.mlMax, mlMin := emin m p.mlMin }

/-- The flags, zm_opt_lp_megiddodyer.c:224-232. -/
def setFlags (p : Prob K) : Prob K :=
  { p with
    pos := p.pos || (decide (p.mlMax > fin 0) || (!p.lower.isEmpty && decide (p.xmax < ⊤)) ||
      (!p.upper.isEmpty && !p.lower.isEmpty && decide (p.muMin < p.mlMax)))
    neg := p.neg || (decide (p.mlMin < fin 0) || (!p.lower.isEmpty && decide (p.xmin > ⊥)) ||
      (!p.upper.isEmpty && !p.lower.isEmpty && decide (p.muMax > p.mlMin))) }

/-- `zLPMegiddoDyerAddConstraint`, zm_opt_lp_megiddodyer.c:169-234: a1 x1 + a2 x2 ≤ b. -/
def zLPMegiddoDyerAddConstraint (tol : K) (p : Prob K) (a1 a2 b : K) : Prob K × Bool :=
  if |a2| ≤ tol then
    if |a1| ≤ tol then (p, false) else addVertical p a1 b
  else if |p.c2| ≤ tol then (p, false)
  else (setFlags (addLine tol p (decide (a2 / p.c2 > 0)) (p.c1 - a1 / (a2 / p.c2)) (b / (a2 / p.c2))), true)

/-- `_zLPMegiddoDyerXYIsFeasible`, zm_opt_lp_megiddodyer.c:366-371. -/
def feasible (tol : K) (p : Prob K) (x : K) (y : Ext K) : Bool :=
  decide (shift p.xmin (-tol) ≤ fin x) && decide (fin x ≤ shift p.xmax tol) &&
    decide (y ≤ shift (upperVal p.upper x) tol) && decide (shift (lowerVal p.lower x) (-tol) ≤ y)

/-- `_zLPMegiddoDyerTestAndUpdateDirect`, zm_opt_lp_megiddodyer.c:373-379; `none` is the pair `NAN`, `HUGE_VAL` with `has_solution` false.  A
point whose `y` is `HUGE_VAL` does not occur. -/
def testDirect (tol : K) (p : Prob K) (s : Option (K × Ext K)) (x : K) (y : Ext K) : Option (K × Ext K) :=
  if feasible tol p x y then
    match s with
    | none => some (x, y)
    | some (_, y') => if y > y' then s else some (x, y)
  else s

/-- The test of the intersection of two lines, zm_opt_lp_megiddodyer.c:392-395 and 401-404. -/
def testInter (tol : K) (p : Prob K) (a : Cell K) (s : Option (K × Ext K)) (b : Cell K) : Option (K × Ext K) :=
  match inter tol a b with
  | none => s
  | some (x, y) => testDirect tol p s x (fin y)

/-- The loops on the pairs of lower bounds, zm_opt_lp_megiddodyer.c:399-406; the list is in the order of the traversal. -/
def testPairs (tol : K) (p : Prob K) : List (Cell K) → Option (K × Ext K) → Option (K × Ext K)
  | [], s => s
  | a :: l, s => testPairs tol p l (l.foldl (testInter tol p a) s)

/-- The test of a boundary of the first variable, zm_opt_lp_megiddodyer.c:408-420. -/
def testEnd (tol : K) (p : Prob K) (e : Ext K) (s : Option (K × Ext K)) : Option (K × Ext K) :=
  match real? e with
  | none => s
  | some x => testDirect tol p s x (lowerVal p.lower x)

/-- `_zLPMegiddoDyerSolveDirect`, zm_opt_lp_megiddodyer.c:381-422.  The boundaries are different from -HUGE_VAL and HUGE_VAL respectively when
they are finite (the code does not set them to the opposite infinities). -/
def direct (tol : K) (p : Prob K) : Option (K × Ext K) :=
  let s := p.upper.reverse.foldl (fun s a => p.lower.reverse.foldl (testInter tol p a) s) none
  let s := testPairs tol p p.lower.reverse s
  let s := testEnd tol p p.xmin s
  testEnd tol p p.xmax s

/-- `zLPMegiddoDyerUpdateCode`, zm_opt_lp_megiddodyer.c:424-430; with the optimum found, or the new end of the region. -/
inductive Code (K : Type*) where
  | xmin (x : K)
  | xmax (x : K)
  | unsolvable
  | found (x : K) (y : Ext K)

/-- The decision of `_zLPMegiddoDyerUpdateXRegion` at a point, zm_opt_lp_megiddodyer.c:464-490. -/
def decideRegion (x : K) (u l : VG K) : Code K :=
  if l.v > u.v then
    if l.mmax < u.mmin then .xmin x else if l.mmin > u.mmax then .xmax x else .unsolvable
  else if l.v < u.v then
    if l.mmax < fin 0 then .xmin x else if l.mmin > fin 0 then .xmax x else .found x l.v
  else if l.mmax < fin 0 ∧ l.mmax ≤ u.mmin then .xmin x
  else if l.mmin > fin 0 ∧ l.mmin ≥ u.mmax then .xmax x
  else .found x l.v

/-- `_zLPMegiddoDyerCreateUpperboundPairList` and `_zLPMegiddoDyerCreateLowerboundPairList`, zm_opt_lp_megiddodyer.c:253-260. -/
def createPairs (tol : K) (p : Prob K) : Prob K :=
  let u := pairUp tol (fun a b => decide (a > b)) p.upperPool.length p.upperPool p.upper p.upperPair
  let l := pairUp tol (fun a b => decide (a < b)) p.lowerPool.length p.lowerPool p.lower p.lowerPair
  { p with upperPool := u.1, upper := u.2.1, upperPair := u.2.2, lowerPool := l.1, lower := l.2.1, lowerPair := l.2.2 }

/-- The choice of the pair at the median, zm_opt_lp_megiddodyer.c:458-463. -/
def chooseMedian (med : List (Pair K) → Option (Pair K × List (Pair K))) (p : Prob K) : Option (Pair K × Prob K) :=
  match med p.lowerPair with
  | some (q, l) => some (q, { p with lowerPair := l })
  | none =>
    match med p.upperPair with
    | some (q, l) => some (q, { p with upperPair := l })
    | none => none

/-- `_zLPMegiddoDyerConstraintPairDiscard`, zm_opt_lp_megiddodyer.c:493-499, and the body of the loops at 505-513 and 515-523, on the list of
constraints, the pool and the pairs that are kept. -/
def discardStep (skip : K → Bool) (worse : K → K → Bool) (s : List (Cell K) × List (Cell K) × List (Pair K)) (q : Pair K) :
    List (Cell K) × List (Cell K) × List (Pair K) :=
  if skip q.x then (s.1, s.2.1, q :: s.2.2)
  else if worse q.c1.m q.c2.m then (s.1.erase q.c1, q.c2 :: s.2.1, s.2.2)
  else (s.1.erase q.c2, q.c1 :: s.2.1, s.2.2)

/-- One of the two loops of `_zLPMegiddoDyerDiscardConstraint`, zm_opt_lp_megiddodyer.c:505-524. -/
def discard (skip : K → Bool) (worse : K → K → Bool) (list pool : List (Cell K)) (pairs : List (Pair K)) :
    List (Cell K) × List (Cell K) × List (Pair K) :=
  pairs.reverse.foldl (discardStep skip worse) (list, pool, [])

/-- `_zLPMegiddoDyerDiscardConstraint`, zm_opt_lp_megiddodyer.c:501-525. -/
def discardConstraint (p : Prob K) (skip : K → Bool) (worseU worseL : K → K → Bool) : Prob K :=
  let u := discard skip worseU p.upper p.upperPool p.upperPair
  let l := discard skip worseL p.lower p.lowerPool p.lowerPair
  { p with upper := u.1, upperPool := u.2.1, upperPair := u.2.2, lower := l.1, lowerPool := l.2.1, lowerPair := l.2.2 }

/-- `_zLPMegiddoDyerUpdateXMin` and `_zLPMegiddoDyerDiscardConstraintSmallerX`, zm_opt_lp_megiddodyer.c:432-436, 527-530. -/
def smallerX (p : Prob K) (xm : K) : Prob K :=
  discardConstraint { p with xmin := fin xm } (fun x => decide (x > xm)) (fun a b => decide (a > b)) (fun a b => decide (a < b))

/-- `_zLPMegiddoDyerUpdateXMax` and `_zLPMegiddoDyerDiscardConstraintGreaterX`, zm_opt_lp_megiddodyer.c:438-442, 532-535. -/
def greaterX (p : Prob K) (xm : K) : Prob K :=
  discardConstraint { p with xmax := fin xm } (fun x => decide (x < xm)) (fun a b => decide (a < b)) (fun a b => decide (a > b))

/-- What a call of a solver ends in: a solution, one of the three errors reported, undefined behaviour, or more turns than the fuel allows. -/
inductive Out (K : Type*) where
  | solved (x1 x2 cost : K)
  | infinite
  | nonunique
  | unsolvable
  | ub
  | fuel
deriving DecidableEq

/-- The end of both solvers, `_zLPMegiddoDyerXYToX2`, zm_opt_lp_megiddodyer.c:163-166, 577-579: a division by a coefficient zero, and the use of an
infinite cost, are undefined here. -/
def finish (p : Prob K) (x : K) (y : Ext K) : Out K :=
  match real? y with
  | none => .ub
  | some y => if p.c2 = 0 then .ub else .solved x ((y - p.c1 * x) / p.c2) y

/-- The common part of the two solvers, zm_opt_lp_megiddodyer.c:575-579 and 590-595 (the first returns false without a message). -/
def finishDirect (tol : K) (p : Prob K) : Out K :=
  match direct tol p with
  | none => .unsolvable
  | some (x, y) => finish p x y

/-- The loop of `zLPMegiddoDyerSolve`, zm_opt_lp_megiddodyer.c:558-579, with the state it leaves. -/
def solveLoop (tol : K) (med : List (Pair K) → Option (Pair K × List (Pair K))) : Nat → Prob K → Out K × Prob K
  | 0, p => (.fuel, p)
  | n + 1, p =>
    if p.upper.length + p.lower.length > 4 then
      match chooseMedian med (createPairs tol p) with
      | none => (finishDirect tol (createPairs tol p), createPairs tol p)
      | some (q, p) =>
        match decideRegion q.x (upperGrad tol p.upper q.x) (lowerGrad tol p.lower q.x) with
        | .found x y => (finish p x y, p)
        | .unsolvable => (.unsolvable, p)
        | .xmin x => solveLoop tol med n (smallerX p x)
        | .xmax x => solveLoop tol med n (greaterX p x)
    else (finishDirect tol p, p)

/-- `_zLPMegiddoDyerCheckFeasibility`, zm_opt_lp_megiddodyer.c:537-548: the error, if any. -/
def check (p : Prob K) : Option (Out K) :=
  if !(p.pos && p.neg) then some .infinite else if !p.det then some .nonunique else none

/-- `zLPMegiddoDyerSolve`, zm_opt_lp_megiddodyer.c:551-580. -/
def zLPMegiddoDyerSolve (tol : K) (med : List (Pair K) → Option (Pair K × List (Pair K))) (fuel : Nat) (p : Prob K) : Out K × Prob K :=
  match check p with
  | some e => (e, p)
  | none => solveLoop tol med fuel p

/-- `zLPMegiddoDyerSolveDirect`, zm_opt_lp_megiddodyer.c:583-596. -/
def zLPMegiddoDyerSolveDirect (tol : K) (p : Prob K) : Out K :=
  match check p with
  | some e => e
  | none => finishDirect tol p

/-- The constraints of a user, added one after the other. -/
def addAll (tol : K) (p : Prob K) : List (K × K × K) → Prob K
  | [] => p
  | (a1, a2, b) :: cs => addAll tol (zLPMegiddoDyerAddConstraint tol p a1 a2 b).1 cs

/-- A problem as a user sets it up: initialise, set the cost, add the constraints. -/
def problem (tol c1 c2 : K) (cs : List (K × K × K)) : Prob K :=
  addAll tol (zLPMegiddoDyerSetCostCoefficient tol zLPMegiddoDyerInit c1 c2).1 cs

end Zm.MD
