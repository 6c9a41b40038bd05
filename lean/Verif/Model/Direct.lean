import Verif.Base.Fn
import Mathlib.Algebra.Order.Field.Basic

/-!
# DIRECT method (zm_opt_direct.c)

A list of regions is in the order of `zListForEach`, from the tail cell on.  Vectors are functions of which the first
`n` entries have a meaning.  `F` is the objective as a function of the point in the unit cube, see `scaled`.  Access
to a list beyond `lmax`, to the data of the root cell of an empty list, and deletion from an empty list are `ub`.
Allocation never fails; cells that are not freed are not represented.
-/

namespace Zm.Direct
open Zm
variable {K : Type*} [Field K] [LinearOrder K]

/-- `zOptDIRECTRect`, zm_opt_direct.c:9-13. -/
structure Rect (K : Type*) where
  x : Nat → K
  val : K
  level : Nat → Nat

/-- The lists of `zOptDIRECTRectSet`, zm_opt_direct.c:126-131, by levels. -/
abbrev RSet (K : Type*) := Nat → List (Rect K)

/-- `zVecScale` called in zm_opt_direct.c:49-52 (zm_raw_vec.c:250-257). -/
def scale (min max x : Nat → K) : Nat → K := fun i => min i + x i * (max i - min i)

/-- `_zOptDIRECTRectEval`, zm_opt_direct.c:49-52. -/
def scaled (f : (Nat → K) → K) (min max : Nat → K) : (Nat → K) → K := fun x => f (scale min max x)

/-- `_zOptDIRECTRectListInsert`, zm_opt_direct.c:74-84: before the first region of a larger value. -/
def listInsert : List (Rect K) → Rect K → List (Rect K)
  | [], r => [r]
  | c :: cs, r => if c.val > r.val then r :: c :: cs else c :: listInsert cs r

/-- `_zOptDIRECTRectSetInsert`, zm_opt_direct.c:158-161. -/
def setInsert (lmax : Nat) (S : RSet K) (level : Nat) (r : Rect K) : Res (RSet K) :=
  if level ≤ lmax then .ok (set1 S level (listInsert (S level) r)) else .ub

/-- `while( zListIsEmpty( &set->list[i] ) ) i++`, zm_opt_direct.c:190 and 371, with `k` lists left. -/
def firstNonempty (S : RSet K) : Nat → Nat → Res Nat
  | 0, _ => .ub
  | k+1, i => if (S i).isEmpty then firstNonempty S k (i+1) else .ok i

/-- One turn of the loop in zm_opt_direct.c:196-200. -/
def findMinStep (S : RSet K) (i : Nat) (m : K × Nat) : K × Nat :=
  match S i with
  | [] => m
  | c :: _ => if m.1 > c.val then (c.val, i) else m

/-- The value of the tail of a list. -/
def tailVal : List (Rect K) → Res K
  | [] => .ub
  | c :: _ => .ok c.val

/-- `_zOptDIRECTRectSetFindMin`, zm_opt_direct.c:186-202: the least value and its level. -/
def findMin (lmax : Nat) (S : RSet K) : Res (K × Nat) :=
  (firstNonempty S (lmax+1) 0).bind fun i =>
  (tailVal (S i)).bind fun v =>
  .ok (forUp i (lmax+1) (findMinStep S) (v, i))

/-- `_zOptDIRECTRectPatternCreate`, zm_opt_direct.c:241-259: the direction and the two regions beside. -/
def patCreate (F : (Nat → K) → K) (level : Nat) (r : Rect K) (i : Nat) : Nat × Rect K × Rect K :=
  let d := 1 / 3 ^ (level+1)
  let xp := set1 r.x i (r.x i + d)
  let xn := set1 r.x i (r.x i - d)
  (i, { x := xp, val := F xp, level := r.level }, { x := xn, val := F xn, level := r.level })

/-- `pat->w`, zm_opt_direct.c:257. -/
def patW (p : Nat × Rect K × Rect K) : K := if p.2.1.val < p.2.2.val then p.2.1.val else p.2.2.val

/-- The insertion in the list of directions, zm_opt_direct.c:279-286. -/
def patInsert : List (Nat × Rect K × Rect K) → (Nat × Rect K × Rect K) → List (Nat × Rect K × Rect K)
  | [], p => [p]
  | c :: cs, p => if patW c > patW p then p :: c :: cs else c :: patInsert cs p

/-- One turn of the loop in zm_opt_direct.c:272-287: the list of directions. -/
def patStep (F : (Nat → K) → K) (level : Nat) (r : Rect K) (i : Nat) (ps : List (Nat × Rect K × Rect K)) : List (Nat × Rect K × Rect K) :=
  if r.level i ≠ level then ps else patInsert ps (patCreate F level r i)

/-- The loop in zm_opt_direct.c:272-287. -/
def patterns (n : Nat) (F : (Nat → K) → K) (level : Nat) (r : Rect K) : List (Nat × Rect K × Rect K) :=
  forUp 0 n (patStep F level r) []

/-- The loop in zm_opt_direct.c:289-300, and the insertion in line 301: `target` is the level at which the region itself
is inserted in the end. -/
def divideLoop (lmax level : Nat) : List (Nat × Rect K × Rect K) → Nat → RSet K → Rect K → Res (RSet K)
  | [], target, S, r => setInsert lmax S target r
  | p :: ps, target, S, r =>
    let lv := set1 r.level p.1 (level+1)
    let at_ := if ps.isEmpty then target + 1 else target
    (setInsert lmax S at_ { p.2.1 with level := lv }).bind fun S =>
    (setInsert lmax S at_ { p.2.2 with level := lv }).bind fun S =>
    divideLoop lmax level ps at_ S { r with level := lv }

/-- `_zOptDIRECTRectSetRectDivide`, zm_opt_direct.c:262-306. -/
def rectDivide (lmax n : Nat) (F : (Nat → K) → K) (level : Nat) (S : RSet K) (r : Rect K) : Res (RSet K) :=
  divideLoop lmax level (patterns n F level r) level S r

/-- The slope in zm_opt_direct.c:380. -/
def slope (i k : Nat) (v w : K) : K := 3 ^ i * (v - w) / (1 - 1 / 3 ^ (k - i))

/-- One turn of the loop in zm_opt_direct.c:378-385: the largest slope and its level. -/
def slopeStep (S : RSet K) (i : Nat) (v : K) (k : Nat) (g : K × Nat) : K × Nat :=
  match S k with
  | [] => g
  | c :: _ => if slope i k v c.val ≥ g.1 then (slope i k v c.val, k) else g

/-- The loop in zm_opt_direct.c:372-387 of `_zOptDIRECTRectPORIdent`: the lists and the regions taken from them, with the
level of the least value and a limit `k` to the number of turns. -/
def identLoop (S : RSet K) (por : Nat → Option (Rect K)) (minLevel : Nat) : Nat → Nat → Res (RSet K × (Nat → Option (Rect K)))
  | 0, _ => .ub
  | k+1, i =>
    match S i with
    | [] => .ub
    | c :: cs =>
      if i = minLevel then .ok (set1 S i cs, set1 por i (some c))
      else identLoop (set1 S i cs) (set1 por i (some c)) minLevel k (forUp (i+1) (minLevel+1) (slopeStep (set1 S i cs) i c.val) (0, i+1)).2

/-- The points evaluated by the creation of patterns. -/
def points (ps : List (Nat × Rect K × Rect K)) : List (Nat → K) := ps.flatMap fun p => [p.2.1.x, p.2.2.x]

/-- One turn of `_zOptDIRECTRectPORSetDivide`, zm_opt_direct.c:396-400.  The second component, which the code does not
have, lists the points at which the objective has been evaluated. -/
def porStep (lmax n : Nat) (F : (Nat → K) → K) (por : Nat → Option (Rect K)) (i : Nat) (S : RSet K × List (Nat → K)) : Res (RSet K × List (Nat → K)) :=
  match por i with
  | none => .ok S
  | some r => (rectDivide lmax n F i S.1 r).bind fun T => .ok (T, S.2 ++ points (patterns n F i r))

/-- `_zOptDIRECTRectPORSetDivide`, zm_opt_direct.c:392-402. -/
def porDivide (lmax n : Nat) (F : (Nat → K) → K) (por : Nat → Option (Rect K)) (S : RSet K × List (Nat → K)) : Res (RSet K × List (Nat → K)) :=
  forUpM 0 lmax (porStep lmax n F por) S

/-- `_zOptDIRECTRectSetInit`, zm_opt_direct.c:173-183. -/
def start (F : (Nat → K) → K) : RSet K :=
  set1 (fun _ => []) 0 [{ x := fun _ => 1/2, val := F (fun _ => 1/2), level := fun _ => 0 }]

/-- What is left: the number returned, the lists, the level of the least value found last, and the points evaluated. -/
structure Ended (K : Type*) where
  ret : Nat
  set : RSet K
  minLevel : Nat
  log : List (Nat → K)

/-- The loop in zm_opt_direct.c:438-442, with `k` turns left of which the next has number `i`; `ml` is the level of the
least value found before. -/
def solveLoop (lmax n : Nat) (F : (Nat → K) → K) : Nat → Nat → Nat → RSet K × List (Nat → K) → Res (Ended K)
  | 0, i, ml, S => .ok { ret := i, set := S.1, minLevel := ml, log := S.2 }
  | k+1, i, _, S =>
    (findMin lmax S.1).bind fun m =>
    if m.2 = lmax then .ok { ret := i, set := S.1, minLevel := m.2, log := S.2 }
    else
      (firstNonempty S.1 (lmax+1) 0).bind fun i0 =>
      (identLoop S.1 (fun _ => none) m.2 (lmax+1) i0).bind fun sp =>
      (porDivide lmax n F sp.2 (sp.1, S.2)).bind fun S => solveLoop lmax n F k (i+1) m.2 S

/-- What the caller gets, and the points of the unit cube at which the objective has been evaluated. -/
structure Answer (K : Type*) where
  ret : Nat
  ans : Nat → K
  eval : K
  log : List (Nat → K)

/-- `zListTail( &set.list[set.min_level] )->data`, zm_opt_direct.c:443-444. -/
def answer (min max : Nat → K) (e : Ended K) : Res (Answer K) :=
  match e.set e.minLevel with
  | [] => .ub
  | c :: _ => .ok { ret := e.ret, ans := scale min max c.x, eval := c.val, log := e.log }

/-- The number of iterations, zm_opt_direct.c:437. -/
def iterOf (iter : Int) : Nat := if iter = 0 then 1000 else iter.toNat

/-- `zOptSolveDIRECT`, zm_opt_direct.c:420-450, for vectors of the same size `n` and `lmax`, which is the largest
integer not above the logarithm of `1 / tol` to the base 3 (a tolerance above 1 is not represented). -/
def zOptSolveDIRECT (f : (Nat → K) → K) (min max : Nat → K) (n lmax : Nat) (iter : Int) : Res (Answer K) :=
  (solveLoop lmax n (scaled f min max) (iterOf iter) 0 0 (start (scaled f min max), [fun _ => 1/2])).bind (answer min max)

end Zm.Direct
