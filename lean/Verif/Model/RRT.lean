import Mathlib.Algebra.Order.Field.Basic
import Mathlib.Algebra.Order.Floor.Semiring
import Mathlib.Algebra.Module.Defs
import Verif.Base.Fn
import Verif.Model.OneD

/-!
# Rapidly exploring random trees (zm_rrt.c)

The four functions a user supplies (distance, extension, collision check, goal check), the step length and the tolerance of `zIsTiny` form an
environment.  A tree is an array of nodes in the order of insertion; a pointer to a node is its number; the head of the list is the last node
(`zListInsertHead`), and `zListForEach` runs from the oldest node to the head.  Allocation does not fail.  The random points (`zVecRand`) are an
arbitrary sequence.
-/

namespace Zm.RRT

variable {P K : Type*} [Field K] [LinearOrder K]

/-- The functions and numbers stored in `zRRT`, include/zm/zm_rrt.h:38-51, with the argument `util` applied. -/
structure Env (P K : Type*) where
  dist : P → P → K
  ext : P → P → K → P
  coll : P → Bool
  goal : P → Bool
  eps : K
  tol : K

/-- `zRRTNode`, zm_rrt.h:23-28. -/
structure Node (P K : Type*) where
  v : P
  edge : K
  total : K
  parent : Option Nat

/-- `zRRTList`. -/
structure Tree (P K : Type*) where
  size : Nat
  nd : Nat → Node P K

/-- The head of the list, the node added last. -/
def Tree.head (t : Tree P K) : Node P K := t.nd (t.size - 1)

/-- `_zRRTListAddNode`, zm_rrt.c:22-35 (and `_zRRTListCloneNode`, 38-48). -/
def addNode (t : Tree P K) (v : P) (cost : K) (parent : Option Nat) : Tree P K :=
  { size := t.size + 1
    nd := set1 t.nd t.size { v := v, edge := cost, total := (match parent with | some p => (t.nd p).total + cost | none => cost), parent := parent } }

/-- A tree of one node, zm_rrt.c:187-188. -/
def init (start : P) : Tree P K :=
  { size := 1, nd := fun _ => { v := start, edge := 0, total := 0, parent := none } }

/-- The body of the search for the nearest node, zm_rrt.c:57-60; `none` is `HUGE_VAL` and a null pointer. -/
def nnStep (env : Env P K) (t : Tree P K) (vr : P) (i : Nat) (best : Option (K × Nat)) : Option (K × Nat) :=
  match best with
  | none => some (env.dist vr (t.nd i).v, i)
  | some (dmin, j) => if env.dist vr (t.nd i).v < dmin then some (env.dist vr (t.nd i).v, i) else some (dmin, j)

/-- `_zRRTListNN`, zm_rrt.c:51-63. -/
def nn (env : Env P K) (t : Tree P K) (vr : P) : Option (K × Nat) := forUp 0 t.size (nnStep env t vr) none

/-- The return values, zm_rrt.c:86-92. -/
inductive Ret where
  | nop | advanced | reached | trapped
  deriving DecidableEq

/-- The point, its cost and the result before the check, `_zRRTListExtendTest`, zm_rrt.c:95-108. -/
def extendTest (env : Env P K) (vn vr : P) (dist : K) : P × K × Ret :=
  if dist < env.eps then (vr, dist, if env.coll vr then .trapped else .reached)
  else
    let ve := env.ext vn vr (env.eps / dist)
    (ve, env.eps, if env.coll ve then .trapped else .advanced)

/-- `_zRRTListExtend`, zm_rrt.c:111-130.  (Without a nearest node, which is the case for an empty list only, the distance is infinite and a null
pointer is dereferenced; the trees of the callers are never empty.) -/
def extend (env : Env P K) (t : Tree P K) (vr : P) : Res (Tree P K × Ret) :=
  match nn env t vr with
  | none => .ub
  | some (dist, i) =>
    if |dist| ≤ env.tol then .ok (t, .nop)
    else
      let e := extendTest env (t.nd i).v vr dist
      if e.2.2 = .trapped then .ok (t, .trapped)
      else .ok (addNode t e.1 e.2.1 (some i), e.2.2)

/-- `_zRRTListExtendGreedy`, zm_rrt.c:133-141; an endless loop is undefined behaviour. -/
def extendGreedy (env : Env P K) : Nat → Tree P K → P → Res (Tree P K × Ret)
  | 0, _, _ => .ub
  | k+1, t, vr =>
    match extend env t vr with
    | .ok (t, .advanced) => extendGreedy env k t vr
    | .ok (t, r) => .ok (t, r)
    | .fail => .fail
    | .ub => .ub

/-- The walk from a node to the root, zm_rrt.c:171-175: the points from the root to the node (they are inserted at the tail), and the sum of the costs of
the edges; an endless walk is undefined behaviour. -/
def path (t : Tree P K) : Nat → Nat → Res (List P × K)
  | 0, _ => .ub
  | k+1, i =>
    match (t.nd i).parent with
    | none => .ok ([(t.nd i).v], (t.nd i).edge)
    | some p =>
      match path t k p with
      | .ok (l, c) => .ok (l ++ [(t.nd i).v], (t.nd i).edge + c)
      | .fail => .fail
      | .ub => .ub

/-- The loop of `_zRRTFindPath`, zm_rrt.c:192-198: the tree, and whether the goal has been found. -/
def findLoop (extf : Tree P K → P → Res (Tree P K × Ret)) (goal : P → Bool) (rnd : Nat → P) : Nat → Nat → Tree P K → Res (Tree P K × Bool)
  | 0, _, t => .ok (t, false)
  | k+1, i, t =>
    match extf t (rnd i) with
    | .ok (t, .trapped) => findLoop extf goal rnd k (i+1) t
    | .ok (t, _) => if goal t.head.v then .ok (t, true) else findLoop extf goal rnd k (i+1) t
    | .fail => .fail
    | .ub => .ub

/-- What `_zRRTFindPath` leaves: the result, and the path and its cost when the caller has asked for the cost.  Without a pointer for the cost the
path is not touched, zm_rrt.c:203. -/
def finish (fuel : Nat) (wantCost : Bool) (r : Tree P K × Bool) : Res (Bool × Option (List P × K)) :=
  if wantCost then
    match path r.1 fuel (r.1.size - 1) with
    | .ok lc => .ok (r.2, some lc)
    | .fail => .fail
    | .ub => .ub
  else .ok (r.2, none)

/-- `_zRRTFindPath`, zm_rrt.c:180-206. -/
def findPath (extf : Tree P K → P → Res (Tree P K × Ret)) (goal : P → Bool) (rnd : Nat → P) (fuel : Nat) (start : P) (iter : Int) (wantCost : Bool) :
    Res (Bool × Option (List P × K)) :=
  match findLoop extf goal rnd (OneD.iterInit iter) 0 (init start) with
  | .ok r => finish fuel wantCost r
  | .fail => .fail
  | .ub => .ub

/-- `zRRTFindPath`, zm_rrt.c:209-212. -/
def zRRTFindPath (env : Env P K) (rnd : Nat → P) (fuel : Nat) (start : P) (iter : Int) (wantCost : Bool) : Res (Bool × Option (List P × K)) :=
  findPath (extend env) env.goal rnd fuel start iter wantCost

/-! ## The variant that rewires -/

section Opt
variable [FloorSemiring K]

/-- `_zRRTListCheckNodeRewirable`, zm_rrt.c:223-240; the conversion to `int` cuts off the fraction. -/
def rewirable (env : Env P K) (v1 v2 : P) (dist : K) : Bool :=
  let n := ⌊dist / env.eps + 1⌋₊
  (List.range n).all fun i => i = 0 || ! env.coll (env.ext v1 v2 ((i : K) / (n : K)))

/-- The nodes near to the new point and their distances, in the order of the list, zm_rrt.c:267-277. -/
def nearList (env : Env P K) (t : Tree P K) (ve : P) (r : K) : List (Nat × K) :=
  (List.range t.size).filterMap fun i =>
    let d := env.dist (t.nd i).v ve
    if d < r ∧ rewirable env ve (t.nd i).v d then some (i, d) else none

/-- The entry with the least total cost, the first one among equal ones, zm_rrt.c:272-275. -/
def minNear (t : Tree P K) : List (Nat × K) → Option (Nat × K) → Option (Nat × K)
  | [], best => best
  | e :: l, none => minNear t l (some e)
  | e :: l, some b => minNear t l (if (t.nd e.1).total + e.2 < (t.nd b.1).total + b.2 then some e else some b)

/-- The rewiring of one near node, zm_rrt.c:288-293. -/
def rewire1 (t : Tree P K) (e : Nat × K) : Tree P K :=
  let h := t.size - 1
  if (t.nd h).total + e.2 < (t.nd e.1).total then
    { t with nd := set1 t.nd e.1 { v := (t.nd e.1).v, edge := e.2, total := (t.nd h).total + e.2, parent := some h } }
  else t

/-- `_zRRTListAddAndRewireNode`, zm_rrt.c:258-299. -/
def addAndRewire (env : Env P K) (t : Tree P K) (ve : P) (i : Nat) (dn r : K) : Tree P K :=
  let near := nearList env t ve r
  match minNear t near none with
  | none => addNode t ve dn (some i)
  | some m => (near.filter (·.1 ≠ m.1)).foldl rewire1 (addNode t ve m.2 (some m.1))

/-- `_zRRTListExtendOpt`, zm_rrt.c:303-326, for any radius that depends on the number of nodes. -/
def extendOpt (env : Env P K) (radius : Nat → K) (t : Tree P K) (vr : P) : Res (Tree P K × Ret) :=
  match nn env t vr with
  | none => .ub
  | some (dist, i) =>
    if |dist| ≤ env.tol then .ok (t, .nop)
    else
      let e := extendTest env (t.nd i).v vr dist
      if e.2.2 = .trapped then .ok (t, .trapped)
      else .ok (addAndRewire env t e.1 i e.2.1 (radius t.size), e.2.2)

/-- `zRRTFindPathOpt`, zm_rrt.c:329-332. -/
def zRRTFindPathOpt (env : Env P K) (radius : Nat → K) (rnd : Nat → P) (fuel : Nat) (start : P) (iter : Int) (wantCost : Bool) :
    Res (Bool × Option (List P × K)) :=
  findPath (extendOpt env radius) env.goal rnd fuel start iter wantCost

end Opt

/-! ## Two trees -/

/-- The loop of `zRRTFindPathDual`, zm_rrt.c:372-379: the trees `list1` and `list2`; `sw` tells that they have been exchanged. -/
def dualLoop (env : Env P K) (rnd : Nat → P) (fuel : Nat) : Nat → Nat → Tree P K → Tree P K → Bool → Res ((Tree P K × Tree P K × Bool) × Bool)
  | 0, _, t1, t2, sw => .ok ((t1, t2, sw), false)
  | k+1, i, t1, t2, sw =>
    match extend env t1 (rnd i) with
    | .ok (t1, .trapped) => dualLoop env rnd fuel k (i+1) t1 t2 sw
    | .ok (t1, _) =>
      match extendGreedy env fuel t2 t1.head.v with
      | .ok (t2, .reached) => .ok ((t1, t2, sw), true)
      | .ok (t2, _) => dualLoop env rnd fuel k (i+1) t2 t1 (!sw)
      | .fail => .fail
      | .ub => .ub
    | .fail => .fail
    | .ub => .ub

/-- `_zRRTPathDual`, zm_rrt.c:335-352: the second walk inserts its points at the head. -/
def pathDual (env : Env P K) (fuel : Nat) (s g : Tree P K) : Res (List P × K) :=
  match path s fuel (s.size - 1), path g fuel (g.size - 1) with
  | .ok (l1, c1), .ok (l2, c2) => .ok (l1 ++ l2.reverse, c1 + c2 + env.dist s.head.v g.head.v)
  | _, _ => .ub

/-- `zRRTFindPathDual`, zm_rrt.c:355-387. -/
def zRRTFindPathDual (env : Env P K) (rnd : Nat → P) (fuel : Nat) (start goal : P) (iter : Int) (wantCost : Bool) :
    Res (Bool × Option (List P × K)) :=
  match dualLoop env rnd fuel (OneD.iterInit iter) 0 (init start) (init goal) false with
  | .ok ((t1, t2, sw), r) =>
    if wantCost then
      match pathDual env fuel (if sw then t2 else t1) (if sw then t1 else t2) with
      | .ok lc => .ok (r, some lc)
      | .fail => .fail
      | .ub => .ub
    else .ok (r, none)
  | .fail => .fail
  | .ub => .ub

/-! ## Shortcuts -/

/-- `_zRRTShortcutPathCheck`, zm_rrt.c:390-401; an endless recursion is undefined behaviour. -/
def shortcutCheck (env : Env P K) (v1 v2 : P) : Nat → K → K → K → Res Bool
  | 0, _, _, _ => .ub
  | k+1, s1, s2, d =>
    if d < env.eps then .ok true
    else
      let s := 1/2 * (s1 + s2)
      if env.coll (env.ext v1 v2 s) then .ok false
      else
        match shortcutCheck env v1 v2 k s1 s (d * (1/2)) with
        | .ok true => shortcutCheck env v1 v2 k s s2 (d * (1/2))
        | r => r

/-- The inner loop of `zRRTShortcutPath`, zm_rrt.c:417-424.  Between `cp1` and `cp2` there is always exactly one cell, `m`; `rest` begins with `cp2`
and is empty when `cp2` is the root of the list.  The result is the last cell before `cp2` and the cells from `cp2` on. -/
def shortcutScan (check : P → P → Res Bool) (cp1 : P) : P → List P → Res (P × List P)
  | m, [] => .ok (m, [])
  | m, c :: rest =>
    match check cp1 c with
    | .ok true => shortcutScan check cp1 c rest
    | .ok false => .ok (m, c :: rest)
    | .fail => .fail
    | .ub => .ub

/-- The outer loop, zm_rrt.c:416-428: the cells from `cp1` on, and the cost.  (The measure of the recursion is the number of the remaining cells.) -/
def shortcutLoop (env : Env P K) (check : P → P → Res Bool) : Nat → P → P → List P → K → Res (List P × K)
  | 0, _, _, _, _ => .ub
  | k+1, cp1, m, rest, cost =>
    match rest with
    | [] => .ok ([cp1, m], cost)
    | _ :: _ =>
      match shortcutScan check cp1 m rest with
      | .ok (m, []) => .ok ([cp1, m], cost + env.dist cp1 m)
      | .ok (m, c :: rest) =>
        match shortcutLoop env check k m c rest (cost + env.dist cp1 m) with
        | .ok (l, cost) => .ok (cp1 :: l, cost)
        | .fail => .fail
        | .ub => .ub
      | .fail => .fail
      | .ub => .ub

/-- `zRRTShortcutPath`, zm_rrt.c:404-431: the path (from the tail on) and the cost, which is not written for paths of less than three points. -/
def zRRTShortcutPath (env : Env P K) (fuel : Nat) (l : List P) : Res (List P × Option K) :=
  match l with
  | cp1 :: m :: c :: rest =>
    match shortcutLoop env (fun a b => shortcutCheck env a b fuel 0 1 (env.dist a b)) (rest.length + 2) cp1 m (c :: rest) 0 with
    | .ok (l, c) => .ok (l, some c)
    | .fail => .fail
    | .ub => .ub
  | l => .ok (l, none)

/-! ## Escape -/

/-- `_zRRTListExtendEscape`, zm_rrt.c:434-457. -/
def extendEscape (env : Env P K) (t : Tree P K) (vr : P) : Res (Tree P K × Ret) :=
  match nn env t vr with
  | none => .ub
  | some (dist, i) =>
    if |dist| ≤ env.tol then .ok (t, .nop)
    else
      let ve := if dist < env.eps then vr else env.ext (t.nd i).v vr (env.eps / dist)
      .ok (addNode t ve 0 (some i), if env.coll ve then .trapped else .reached)

/-- The loop of `zRRTEscape`, zm_rrt.c:476-481. -/
def escapeLoop (env : Env P K) (rnd : Nat → P) : Nat → Nat → Tree P K → Res (Tree P K × Bool)
  | 0, _, t => .ok (t, false)
  | k+1, i, t =>
    match extendEscape env t (rnd i) with
    | .ok (t, .reached) => .ok (t, true)
    | .ok (t, _) => escapeLoop env rnd k (i+1) t
    | .fail => .fail
    | .ub => .ub

/-- `zRRTEscape`, zm_rrt.c:460-489: the point found and the result. -/
def zRRTEscape (env : Env P K) (rnd : Nat → P) (start : P) (iter : Int) : Res (P × Bool) :=
  if env.coll start then
    match escapeLoop env rnd (OneD.iterInit iter) 0 (init start) with
    | .ok (t, r) => .ok (t.head.v, r)
    | .fail => .fail
    | .ub => .ub
  else .ok (start, true)

/-- What `zRRTInit` stores for functions that are not given, zm_rrt.c:66-83, 144-155, for the operations of a vector space. -/
def defaultEnv {V : Type*} [AddCommGroup V] [Module K V] (dist : V → V → K) (eps tol : K) : Env V K :=
  { dist := dist
    ext := fun vfrom vto e => (1 - e) • vfrom + e • vto
    coll := fun _ => true
    goal := fun _ => true
    eps := eps
    tol := tol }

end Zm.RRT
