import Verif.Model.Direct

/-!
# Memory of the DIRECT method (zm_opt_direct.c)

First part: the blocks of a whole run in which every allocation succeeds are counted beside the computation of `Model/Direct.lean`.  A region is four blocks (the structure, the vector with its
buffer, the numbers of trisections), a cell of a list is one.

Second part: the blocks of one division, with their identities, where any allocation may fail.  There a region is one block.
-/

namespace Zm.DirectMem
open Zm Direct

section
variable {K : Type*} [Field K] [LinearOrder K]

/-- The blocks of `_zOptDIRECTRectAlloc`, zm_opt_direct.c:25-34. -/
def rectBlocks : Int := 4

/-- The loop in zm_opt_direct.c:289-300 and the insertion in line 301, with the blocks: each insertion allocates a cell. -/
def divideLoopC (lmax level : Nat) : List (Nat × Rect K × Rect K) → Nat → RSet K × Int → Rect K → Res (RSet K × Int)
  | [], target, S, r => (setInsert lmax S.1 target r).bind fun T => .ok (T, S.2 + 1)
  | p :: ps, target, S, r =>
    let lv := set1 r.level p.1 (level+1)
    let at_ := if ps.isEmpty then target + 1 else target
    (setInsert lmax S.1 at_ { p.2.1 with level := lv }).bind fun T =>
    (setInsert lmax T at_ { p.2.2 with level := lv }).bind fun T =>
    divideLoopC lmax level ps at_ (T, S.2 + 1 + 1) { r with level := lv }

/-- `_zOptDIRECTRectSetRectDivide`, zm_opt_direct.c:262-306, with the blocks: the array of patterns, for each direction two regions and a cell of the list of directions; at the end that list and the
array are released. -/
def rectDivideC (lmax n : Nat) (F : (Nat → K) → K) (level : Nat) (S : RSet K × Int) (r : Rect K) : Res (RSet K × Int) :=
  let ps := patterns n F level r
  (divideLoopC lmax level ps level (S.1, S.2 + 1 + ps.length * (2 * rectBlocks + 1)) r).bind fun T => .ok (T.1, T.2 - ps.length - 1)

/-- One turn of `_zOptDIRECTRectPORSetDivide`, zm_opt_direct.c:396-400, with the blocks: the cell of the region divided is forgotten. -/
def porStepC (lmax n : Nat) (F : (Nat → K) → K) (por : Nat → Option (Rect K)) (i : Nat) (S : (RSet K × List (Nat → K)) × Int) : Res ((RSet K × List (Nat → K)) × Int) :=
  match por i with
  | none => .ok S
  | some r => (rectDivideC lmax n F i (S.1.1, S.2) r).bind fun T => .ok ((T.1, S.1.2 ++ points (patterns n F i r)), T.2)

/-- `_zOptDIRECTRectPORSetDivide`, zm_opt_direct.c:392-402, with the blocks. -/
def porDivideC (lmax n : Nat) (F : (Nat → K) → K) (por : Nat → Option (Rect K)) (S : (RSet K × List (Nat → K)) × Int) : Res ((RSet K × List (Nat → K)) × Int) :=
  forUpM 0 lmax (porStepC lmax n F por) S

/-- The loop in zm_opt_direct.c:438-442, with the blocks; taking a cell from its list releases nothing. -/
def solveLoopC (lmax n : Nat) (F : (Nat → K) → K) : Nat → Nat → Nat → (RSet K × List (Nat → K)) × Int → Res (Ended K × Int)
  | 0, i, ml, S => .ok ({ ret := i, set := S.1.1, minLevel := ml, log := S.1.2 }, S.2)
  | k+1, i, _, S =>
    (findMin lmax S.1.1).bind fun m =>
    if m.2 = lmax then .ok ({ ret := i, set := S.1.1, minLevel := m.2, log := S.1.2 }, S.2)
    else
      (firstNonempty S.1.1 (lmax+1) 0).bind fun i0 =>
      (identLoop S.1.1 (fun _ => none) m.2 (lmax+1) i0).bind fun sp =>
      (porDivideC lmax n F sp.2 ((sp.1, S.1.2), S.2)).bind fun S => solveLoopC lmax n F k (i+1) m.2 S

/-- The lists of `_zOptDIRECTRectSetDestroy`, zm_opt_direct.c:146-155: of each region of each list the blocks and the cell. -/
def setFree (lmax : Nat) (S : RSet K) (live : Int) : Int := forUp 0 (lmax+1) (fun i l => l - (rectBlocks + 1) * (S i).length) live

/-- `zOptSolveDIRECT`, zm_opt_direct.c:420-450, with the blocks: before, the array of lists, the array of cells, and the first region with its cell; after, the array of cells, the regions in the
lists and the array of lists are released. -/
def zOptSolveDIRECT_C (f : (Nat → K) → K) (min max : Nat → K) (n lmax : Nat) (iter : Int) (live : Int) : Res (Answer K × Int) :=
  (solveLoopC lmax n (scaled f min max) (iterOf iter) 0 0 ((start (scaled f min max), [fun _ => 1/2]), live + 1 + 1 + rectBlocks + 1)).bind fun e =>
  (answer min max e.1).bind fun A => .ok (A, setFree lmax e.1.set (e.2 - 1) - 1)

end

/-! ## One division with failing allocations -/

/-- Allocations tried, the next identity and the live blocks. -/
structure Hp where
  t : Nat := 0
  next : Nat := 0
  live : List Nat := []

/-- An allocation: the identity of the block, or the null pointer. -/
def alloc (avail : Nat → Bool) (h : Hp) : Option Nat × Hp :=
  if avail h.t then (some h.next, ⟨h.t + 1, h.next + 1, h.next :: h.live⟩) else (none, { h with t := h.t + 1 })

/-- A release: of a block that is not live it is undefined. -/
def free (h : Hp) (p : Nat) : Res Hp := if p ∈ h.live then .ok { h with live := h.live.erase p } else .ub

/-- Releases one after the other. -/
def freeAll : List Nat → Hp → Res Hp
  | [], h => .ok h
  | p :: ps, h => (free h p).bind fun h => freeAll ps h

/-- The loop in zm_opt_direct.c:272-287 with `k` directions left: whether it went through, the regions in the pattern (of a direction whose creation failed there are none: both pointers have been
cleared), the cells of the list of directions and the blocks. -/
def createLoop (avail : Nat → Bool) : Nat → List (Nat × Nat) → List Nat → Hp → Bool × List (Nat × Nat) × List Nat × Hp
  | 0, pat, idx, h => (true, pat, idx, h)
  | k+1, pat, idx, h =>
    let a := alloc avail h
    let b := alloc avail a.2
    match a.1, b.1 with
    | some p, some q =>
      let c := alloc avail b.2
      match c.1 with
      | some i => createLoop avail k (pat ++ [(p, q)]) (idx ++ [i]) c.2
      | none => (false, pat ++ [(p, q)], idx, c.2)
    | _, _ => (false, pat, idx, b.2)

/-- The loop in zm_opt_direct.c:289-300: whether it went through, the pattern that is left, the set (pairs of a cell and a region) and the blocks.  The two pointers of a direction are cleared
only after both regions are in the set. -/
def insertLoop (avail : Nat → Bool) : List (Nat × Nat) → List (Nat × Nat) → Hp → Bool × List (Nat × Nat) × List (Nat × Nat) × Hp
  | [], set, h => (true, [], set, h)
  | (p, q) :: pat, set, h =>
    let a := alloc avail h
    match a.1 with
    | none => (false, (p, q) :: pat, set, a.2)
    | some c =>
      let b := alloc avail a.2
      match b.1 with
      | none => (false, (p, q) :: pat, set ++ [(c, p)], b.2)
      | some d => insertLoop avail pat (set ++ [(c, p), (d, q)]) b.2

/-- The end of a division, zm_opt_direct.c:302-305: the list of directions, the regions left in the pattern, and the array. -/
def finish (arr : Nat) (idx : List Nat) (pat : List (Nat × Nat)) (h : Hp) : Res Hp :=
  (freeAll idx h).bind fun h => (freeAll (pat.flatMap fun p => [p.1, p.2]) h).bind fun h => free h arr

/-- `_zOptDIRECTRectSetRectDivide`, zm_opt_direct.c:262-306, of the region `rect`, with `k` directions of longest edges
(simplified: a region with its vector and its levels is one block, and the order in which the directions are taken is that of their creation): what it returns, the set and the blocks. -/
def rectDivide (avail : Nat → Bool) (k rect : Nat) (set : List (Nat × Nat)) (h : Hp) : Res (Bool × List (Nat × Nat) × Hp) :=
  let a := alloc avail h
  match a.1 with
  | none => .ok (false, set, a.2)
  | some arr =>
    let c := createLoop avail k [] [] a.2
    if !c.1 then (finish arr c.2.2.1 c.2.1 c.2.2.2).bind fun h => .ok (false, set, h)
    else
      let i := insertLoop avail c.2.1 set c.2.2.2
      if !i.1 then (finish arr c.2.2.1 i.2.1 i.2.2.2).bind fun h => .ok (false, i.2.2.1, h)
      else
        let b := alloc avail i.2.2.2
        match b.1 with
        | none => (finish arr c.2.2.1 i.2.1 b.2).bind fun h => .ok (false, i.2.2.1, h)
        | some cell => (finish arr c.2.2.1 i.2.1 b.2).bind fun h => .ok (true, i.2.2.1 ++ [(cell, rect)], h)

/-- `_zOptDIRECTRectListDestroy`, zm_opt_direct.c:87-96: of each entry the region and the cell. -/
def setDestroy : List (Nat × Nat) → Hp → Res Hp
  | [], h => .ok h
  | c :: set, h => (free h c.2).bind fun h => (free h c.1).bind fun h => setDestroy set h

end Zm.DirectMem
