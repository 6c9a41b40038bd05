import Verif.Model.MegiddoDyer

/-!
# Memory of the linear programs of two variables (zm_opt_lp_megiddodyer.c)

The program of `Model/MegiddoDyer.lean` with the blocks it allocates: for each line a cell of the list of constraints and a cell of the pool that points to it, for each pair a cell of the list of
pairs that points to two cells of the pool.  Any allocation may fail.  Reading, unlinking or releasing a block that is not live is undefined.  The computations on lines are those of
`Model/MegiddoDyer.lean`, where the `id` of a constraint is now the address of its block.  The functions under `DEBUG` are not modelled.
-/

namespace Zm.MDMem
open MD (Cell Ext fin VG Code Out)
variable {K : Type*} [Field K] [LinearOrder K] [IsStrictOrderedRing K]

/-- Allocations tried, the next address and the live blocks. -/
structure Hp where
  t : Nat := 0
  next : Nat := 0
  live : List Nat := []

/-- An allocation: the address of the block, or the null pointer. -/
def alloc (avail : Nat → Bool) (h : Hp) : Option Nat × Hp :=
  if avail h.t then (some h.next, ⟨h.t + 1, h.next + 1, h.next :: h.live⟩) else (none, { h with t := h.t + 1 })

/-- A release: of a block that is not live it is undefined. -/
def free (h : Hp) (p : Nat) : Res Hp := if p ∈ h.live then .ok { h with live := h.live.erase p } else .ub

/-- Releases one after the other. -/
def freeAll : List Nat → Hp → Res Hp
  | [], h => .ok h
  | p :: ps, h => (free h p).bind fun h => freeAll ps h

/-- `free( p )` of a pointer that may be null. -/
def free? (h : Hp) : Option Nat → Res Hp
  | none => .ok h
  | some p => free h p

/-- An access to blocks: undefined unless all of them are live. -/
def need (h : Hp) (ps : List Nat) : Res Unit := if ∀ p ∈ ps, p ∈ h.live then .ok () else .ub

/-- `zLPMegiddoDyerConstraintPtrListCell`, zm_opt_lp_megiddodyer.h:27-30: its address and the cell it points to. -/
structure Ptr (K : Type*) where
  id : Nat
  cell : Cell K

/-- `zLPMegiddoDyerConstraintPairListCell`, zm_opt_lp_megiddodyer.h:32-45: its address, the two cells it points to and the intersection. -/
structure PairC (K : Type*) where
  id : Nat
  p1 : Ptr K
  p2 : Ptr K
  x : K
  y : K

/-- The lists for the upper or the lower bounds: constraints, pool and pairs. -/
structure Side (K : Type*) where
  list : List (Cell K)
  pool : List (Ptr K)
  pairs : List (PairC K)

/-- `zLPMegiddoDyer`, zm_opt_lp_megiddodyer.h:47-79.  The six lists are in `up` and `lo`; the numbers are those of `dat`, whose own lists are not used. -/
structure St (K : Type*) where
  up : Side K
  lo : Side K
  dat : MD.Prob K
  h : Hp

/-- The problem as the computations of `Model/MegiddoDyer.lean` see it: the lists of constraints with the numbers. -/
def St.view (s : St K) : MD.Prob K := { s.dat with upper := s.up.list, lower := s.lo.list }

/-- `zListPurge( list, cell )` and `free( cell )`, zm_opt_lp_megiddodyer.c:82-83 and 495-496: a cell that is not in the list has no neighbours. -/
def purge (list : List (Cell K)) (c : Cell K) (h : Hp) : Res (List (Cell K) × Hp) :=
  if c ∈ list then (free h c.id).bind fun h => .ok (list.erase c, h) else .ub

/-- `_zLPMegiddoDyerConstraintPairListCreate`, zm_opt_lp_megiddodyer.c:70-102.  The first argument after the rule bounds the number of turns, each of which makes the pool smaller.  When there is no
memory for a pair the two cells go back to the pool in reversed order. -/
def pairUp (avail : Nat → Bool) (tol : K) (rule : K → K → Bool) : Nat → Side K → Hp → Res (Side K × Hp)
  | 0, s, h => .ok (s, h)
  | n + 1, s, h =>
    match s.pool with
    | a :: b :: pool =>
      (need h [a.id, b.id, a.cell.id, b.cell.id]).bind fun _ =>
      match MD.inter tol a.cell b.cell with
      | none =>
        let q := if rule a.cell.y0 b.cell.y0 then (a, b) else (b, a)
        (purge s.list q.1.cell h).bind fun r =>
        (free r.2 q.1.id).bind fun h => pairUp avail tol rule n { s with list := r.1, pool := q.2 :: pool } h
      | some xy =>
        let m := alloc avail h
        match m.1 with
        | none => .ok ({ s with pool := b :: a :: pool }, m.2)
        | some id => pairUp avail tol rule n { s with pool := pool, pairs := ⟨id, a, b, xy.1, xy.2⟩ :: s.pairs } m.2
    | _ => .ok (s, h)

/-- `zLPMegiddoDyerInit`, zm_opt_lp_megiddodyer.c:125-139. -/
def zLPMegiddoDyerInit (h : Hp) : St K := ⟨⟨[], [], []⟩, ⟨[], [], []⟩, MD.zLPMegiddoDyerInit, h⟩

/-- `zListDestroy`: releases the cells of a list. -/
def listDestroy (ids : List Nat) (h : Hp) : Res Hp := freeAll ids h

/-- `zLPMegiddoDyerDestroy`, zm_opt_lp_megiddodyer.c:142-150: the lists of constraints, the pools and the lists of pairs. -/
def zLPMegiddoDyerDestroy (s : St K) : Res (St K) :=
  (listDestroy (s.up.list.map (·.id)) s.h).bind fun h =>
  (listDestroy (s.lo.list.map (·.id)) h).bind fun h =>
  (listDestroy (s.up.pool.map (·.id)) h).bind fun h =>
  (listDestroy (s.lo.pool.map (·.id)) h).bind fun h =>
  (listDestroy (s.up.pairs.map (·.id)) h).bind fun h =>
  (listDestroy (s.lo.pairs.map (·.id)) h).bind fun h =>
  .ok ⟨⟨[], [], []⟩, ⟨[], [], []⟩, s.dat, h⟩

/-- `zLPMegiddoDyerSetCostCoefficient`, zm_opt_lp_megiddodyer.c:153-161. -/
def zLPMegiddoDyerSetCostCoefficient (tol : K) (s : St K) (c1 c2 : K) : St K × Bool :=
  let r := MD.zLPMegiddoDyerSetCostCoefficient tol s.dat c1 c2
  ({ s with dat := r.1 }, r.2)

/-- The insertion of a line, zm_opt_lp_megiddodyer.c:208-223, with the two blocks. -/
def addLine (tol : K) (s : St K) (up : Bool) (m y0 : K) (cp cpp : Nat) (h : Hp) : St K :=
  let c : Cell K := ⟨cp, m, y0⟩
  let d := { s.dat with det := s.dat.det || !decide (|m| ≤ tol) }
  if up then { s with up := { s.up with list := c :: s.up.list, pool := ⟨cpp, c⟩ :: s.up.pool },
                      dat := { d with muMax := MD.emax m d.muMax, muMin := MD.emin m d.muMin }, h := h }
  else { s with lo := { s.lo with list := c :: s.lo.list, pool := ⟨cpp, c⟩ :: s.lo.pool },
                dat := { d with mlMax := MD.emax m d.mlMax, mlMin := MD.emin m d.mlMin }, h := h }

/-- The flags, zm_opt_lp_megiddodyer.c:224-232. -/
def setFlags (s : St K) : St K :=
  let f := MD.setFlags s.view
  { s with dat := { s.dat with pos := f.pos, neg := f.neg } }

/-- The line that a constraint is, zm_opt_lp_megiddodyer.c:209-223: whether it bounds from above, its slope and its ordinate. -/
def lineOf (d : MD.Prob K) (a1 a2 b : K) : Bool × K × K := (decide (a2 / d.c2 > 0), d.c1 - a1 / (a2 / d.c2), b / (a2 / d.c2))

/-- `zLPMegiddoDyerAddConstraint`, zm_opt_lp_megiddodyer.c:169-234, with its two allocations. -/
def zLPMegiddoDyerAddConstraint (avail : Nat → Bool) (tol : K) (s : St K) (a1 a2 b : K) : Res (St K × Bool) :=
  if |a2| ≤ tol then
    if |a1| ≤ tol then .ok (s, false)
    else
      let r := MD.addVertical s.dat a1 b
      .ok ({ s with dat := r.1 }, r.2)
  else if |s.dat.c2| ≤ tol then .ok (s, false)
  else
    let x := alloc avail s.h
    let y := alloc avail x.2
    match x.1, y.1 with
    | some cp, some cpp =>
      let l := lineOf s.dat a1 a2 b
      .ok (setFlags (addLine tol s l.1 l.2.1 l.2.2 cp cpp y.2), true)
    | _, _ => (free? y.2 x.1).bind fun h => (free? h y.1).bind fun h => .ok ({ s with h := h }, false)

/-- `_zLPMegiddoDyerCreateUpperboundPairList` and `_zLPMegiddoDyerCreateLowerboundPairList`, zm_opt_lp_megiddodyer.c:253-260, as called at 456-457: what they return is ignored. -/
def createPairs (avail : Nat → Bool) (tol : K) (s : St K) : Res (St K) :=
  (pairUp avail tol (fun a b => decide (a > b)) s.up.pool.length s.up s.h).bind fun u =>
  (pairUp avail tol (fun a b => decide (a < b)) s.lo.pool.length s.lo u.2).bind fun l =>
  .ok { s with up := u.1, lo := l.1, h := l.2 }

/-- The choice of the pair at the median, zm_opt_lp_megiddodyer.c:458-463; `med` is the function generated by ZEDA, which also reorders the list. -/
def chooseMedian (med : List (PairC K) → Option (PairC K × List (PairC K))) (s : St K) : Option (PairC K × St K) :=
  match med s.lo.pairs with
  | some (q, l) => some (q, { s with lo := { s.lo with pairs := l } })
  | none =>
    match med s.up.pairs with
    | some (q, l) => some (q, { s with up := { s.up with pairs := l } })
    | none => none

/-- The addresses of the cells of both lists of constraints, which every evaluation at a point reads. -/
def cells (s : St K) : List Nat := (s.up.list ++ s.lo.list).map (·.id)

/-- The body of the loops of `_zLPMegiddoDyerDiscardConstraint`, zm_opt_lp_megiddodyer.c:505-513 and 515-523, with `_zLPMegiddoDyerConstraintPairDiscard`, 493-499; `s.pairs` are the pairs kept so far. -/
def discardStep (skip : K → Bool) (worse : K → K → Bool) (s : Side K × Hp) (q : PairC K) : Res (Side K × Hp) :=
  (need s.2 [q.id]).bind fun _ =>
  if skip q.x then .ok ({ s.1 with pairs := q :: s.1.pairs }, s.2)
  else
    (need s.2 [q.p1.id, q.p2.id, q.p1.cell.id, q.p2.cell.id]).bind fun _ =>
    let d := if worse q.p1.cell.m q.p2.cell.m then (q.p1, q.p2) else (q.p2, q.p1)
    (purge s.1.list d.1.cell s.2).bind fun r =>
    (free r.2 d.1.id).bind fun h =>
    (free h q.id).bind fun h => .ok ({ s.1 with list := r.1, pool := d.2 :: s.1.pool }, h)

/-- One of these loops, from the tail of the list of pairs to its head. -/
def discardLoop (skip : K → Bool) (worse : K → K → Bool) : List (PairC K) → Side K × Hp → Res (Side K × Hp)
  | [], s => .ok s
  | q :: l, s => (discardStep skip worse s q).bind fun s => discardLoop skip worse l s

/-- `_zLPMegiddoDyerDiscardConstraint`, zm_opt_lp_megiddodyer.c:501-525. -/
def discardConstraint (s : St K) (skip : K → Bool) (worseU worseL : K → K → Bool) : Res (St K) :=
  (discardLoop skip worseU s.up.pairs.reverse ({ s.up with pairs := [] }, s.h)).bind fun u =>
  (discardLoop skip worseL s.lo.pairs.reverse ({ s.lo with pairs := [] }, u.2)).bind fun l =>
  .ok { s with up := u.1, lo := l.1, h := l.2 }

/-- `_zLPMegiddoDyerUpdateXMin` and `_zLPMegiddoDyerDiscardConstraintSmallerX`, zm_opt_lp_megiddodyer.c:432-436, 527-530. -/
def smallerX (s : St K) (xm : K) : Res (St K) :=
  discardConstraint { s with dat := { s.dat with xmin := fin xm } } (fun x => decide (x > xm)) (fun a b => decide (a > b)) (fun a b => decide (a < b))

/-- `_zLPMegiddoDyerUpdateXMax` and `_zLPMegiddoDyerDiscardConstraintGreaterX`, zm_opt_lp_megiddodyer.c:438-442, 532-535. -/
def greaterX (s : St K) (xm : K) : Res (St K) :=
  discardConstraint { s with dat := { s.dat with xmax := fin xm } } (fun x => decide (x < xm)) (fun a b => decide (a < b)) (fun a b => decide (a > b))

/-- The direct method and the end of both solvers, zm_opt_lp_megiddodyer.c:575-579 and 590-595. -/
def finishDirect (tol : K) (s : St K) : Res (Out K × St K) :=
  (need s.h (cells s)).bind fun _ => .ok (MD.finishDirect tol s.view, s)

/-- What is done with the decision at the median `q`, zm_opt_lp_megiddodyer.c:464-490 and 559-573: the end of the loop, or the state for the next turn. -/
def turn (tol : K) (q : PairC K) (s : St K) : Res ((Out K × St K) ⊕ St K) :=
  (need s.h (q.id :: cells s)).bind fun _ =>
  match MD.decideRegion q.x (MD.upperGrad tol s.up.list q.x) (MD.lowerGrad tol s.lo.list q.x) with
  | .found x y => .ok (.inl (MD.finish s.dat x y, s))
  | .unsolvable => .ok (.inl (.unsolvable, s))
  | .xmin x => (smallerX s x).bind fun s => .ok (.inr s)
  | .xmax x => (greaterX s x).bind fun s => .ok (.inr s)

/-- The loop of `zLPMegiddoDyerSolve`, zm_opt_lp_megiddodyer.c:558-579. -/
def solveLoop (avail : Nat → Bool) (tol : K) (med : List (PairC K) → Option (PairC K × List (PairC K))) : Nat → St K → Res (Out K × St K)
  | 0, s => .ok (.fuel, s)
  | n + 1, s =>
    if s.up.list.length + s.lo.list.length > 4 then
      (createPairs avail tol s).bind fun s =>
      match chooseMedian med s with
      | none => finishDirect tol s
      | some (q, s) =>
        (turn tol q s).bind fun r =>
        match r with
        | .inl e => .ok e
        | .inr s => solveLoop avail tol med n s
    else finishDirect tol s

/-- `zLPMegiddoDyerSolve`, zm_opt_lp_megiddodyer.c:551-580. -/
def zLPMegiddoDyerSolve (avail : Nat → Bool) (tol : K) (med : List (PairC K) → Option (PairC K × List (PairC K))) (fuel : Nat) (s : St K) : Res (Out K × St K) :=
  match MD.check s.dat with
  | some e => .ok (e, s)
  | none => solveLoop avail tol med fuel s

/-- `zLPMegiddoDyerSolveDirect`, zm_opt_lp_megiddodyer.c:583-596. -/
def zLPMegiddoDyerSolveDirect (tol : K) (s : St K) : Res (Out K × St K) :=
  match MD.check s.dat with
  | some e => .ok (e, s)
  | none => finishDirect tol s

/-- A call of a user between initialisation and destruction. -/
inductive Op (K : Type*) where
  | cost (c1 c2 : K)
  | add (a1 a2 b : K)
  | solve (fuel : Nat)
  | direct

/-- One call. -/
def step (avail : Nat → Bool) (tol : K) (med : List (PairC K) → Option (PairC K × List (PairC K))) (s : St K) : Op K → Res (St K)
  | .cost c1 c2 => .ok (zLPMegiddoDyerSetCostCoefficient tol s c1 c2).1
  | .add a1 a2 b => (zLPMegiddoDyerAddConstraint avail tol s a1 a2 b).bind fun r => .ok r.1
  | .solve n => (zLPMegiddoDyerSolve avail tol med n s).bind fun r => .ok r.2
  | .direct => (zLPMegiddoDyerSolveDirect tol s).bind fun r => .ok r.2

/-- A sequence of calls. -/
def run (avail : Nat → Bool) (tol : K) (med : List (PairC K) → Option (PairC K × List (PairC K))) : List (Op K) → St K → Res (St K)
  | [], s => .ok s
  | o :: os, s => (step avail tol med s o).bind fun s => run avail tol med os s

end Zm.MDMem
