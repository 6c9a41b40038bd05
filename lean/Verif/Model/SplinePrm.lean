import Verif.Base.Res
import Mathlib.Data.List.Basic

/-!
# Parameters of B-splines as objects: allocation, release, copies and clones (zm_nurbs.c)

The client has parameters `0, 1, 2, …`, each a structure with an order, a number of slices and a pointer to its knots.  A vector of knots is one block of a heap.
Whether the `t`-th allocation succeeds is arbitrary (`avail t`).  The cells of new memory hold an arbitrary value `z`.  Numbers of points and orders are not negative.
-/

namespace Zm.SplinePrm
open Zm

variable {K : Type*}

/-- `zBSplineParam`, zm_nurbs.h:20-24: the knots are a block of the heap or null. -/
structure Prm where
  order : Nat := 0
  knot : Option Nat := none
  slice : Nat := 0

/-- The heap and the parameters: the contents of the blocks in use, the name of the next one, the number of allocations so far. -/
structure St (K : Type*) where
  blk : Nat → Option (List K)
  next : Nat
  t : Nat
  v : Nat → Prm

/-- What a call answers. -/
inductive Ans (K : Type*)
  | done
  | refused
  | val (x : K)

/-- A function changed at one place. -/
def put {α : Type*} (f : Nat → α) (i : Nat) (a : α) : Nat → α := fun j => if j = i then a else f j

/-- `zVecAlloc`, zm_vec.c:31-45, with the contents given to it at once (simplification: the structure and the buffer are one block). -/
def vecAlloc (avail : Nat → Bool) (l : List K) (s : St K) : Option Nat × St K :=
  if avail s.t then (some s.next, { s with blk := put s.blk s.next (some l), next := s.next + 1, t := s.t + 1 }) else (none, { s with t := s.t + 1 })

/-- The contents of a vector; a null pointer and a released vector are undefined. -/
def vecRead (b : Option Nat) (s : St K) : Res (List K) :=
  match b with
  | none => .ub
  | some b => match s.blk b with
    | none => .ub
    | some l => .ok l

/-- `zVecFree`, zm_vec.c: nothing for a null pointer, undefined for a vector released before. -/
def vecFree (b : Option Nat) (s : St K) : Res (St K) :=
  match b with
  | none => .ok s
  | some b => match s.blk b with
    | none => .ub
    | some _ => .ok { s with blk := put s.blk b none }

/-- `zBSplineParamAlloc`, zm_nurbs.c:12-19: the parameter is initialised first; 0 slices stand for 32 of them (zm_nurbs.h:26). -/
def alloc (avail : Nat → Bool) (z : K) (x order nc slice : Nat) (s : St K) : Res (Ans K × St K) :=
  let s : St K := { s with v := put s.v x {} }
  match vecAlloc avail (List.replicate (nc + order + 1) z) s with
  | (none, s) => .ok (.refused, s)
  | (some b, s) => .ok (.done, { s with v := put s.v x { order := order, knot := some b, slice := if slice ≠ 0 then slice else 32 } })

/-- `zBSplineParamFree`, zm_nurbs.c:22-26. -/
def free (x : Nat) (s : St K) : Res (Ans K × St K) :=
  (vecFree (s.v x).knot s).bind fun s => .ok (.done, { s with v := put s.v x {} })

/-- `zBSplineParamCopy`, zm_nurbs.c:29-42, from `x` to `y`; `memcpy` from a buffer to itself is undefined. -/
def copy (x y : Nat) (s : St K) : Res (Ans K × St K) :=
  if (s.v x).order ≠ (s.v y).order then .ok (.refused, s)
  else (vecRead (s.v x).knot s).bind fun l => (vecRead (s.v y).knot s).bind fun m =>
    if l.length ≠ m.length then .ok (.refused, s)
    else match (s.v y).knot with
      | none => .ub
      | some b =>
        if (s.v x).knot = some b then .ub
        else .ok (.done, { s with blk := put s.blk b (some l), v := put s.v y { s.v y with slice := (s.v x).slice } })

/-- `zBSplineParamClone`, zm_nurbs.c:45-51, with `zVecClone`, zm_vec.c:119-127, from `x` to `y`. -/
def clone (avail : Nat → Bool) (x y : Nat) (s : St K) : Res (Ans K × St K) :=
  match (s.v x).knot with
  | none => .ok (.refused, { s with v := put s.v y { s.v y with knot := none } })
  | some b => (vecRead (some b) s).bind fun l =>
    match vecAlloc avail l s with
    | (none, s) => .ok (.refused, { s with v := put s.v y { s.v y with knot := none } })
    | (some b, s) => .ok (.done, { s with v := put s.v y { order := (s.v x).order, knot := some b, slice := (s.v x).slice } })

/-- `zBSplineParamSetKnot`, zm_nurbs.h:30: undefined outside of the knots. -/
def setKnot (x i : Nat) (a : K) (s : St K) : Res (Ans K × St K) :=
  (vecRead (s.v x).knot s).bind fun l => if l.length ≤ i then .ub else
    match (s.v x).knot with
    | none => .ub
    | some b => .ok (.done, { s with blk := put s.blk b (some (l.set i a)) })

/-- `zBSplineParamKnot`, zm_nurbs.h:29. -/
def getKnot (x i : Nat) (s : St K) : Res (Ans K × St K) :=
  (vecRead (s.v x).knot s).bind fun l => match l[i]? with
    | none => .ub
    | some a => .ok (.val a, s)

/-- A call by the client. -/
inductive Op (K : Type*)
  | alloc (x order nc slice : Nat)
  | free (x : Nat)
  | copy (x y : Nat)
  | clone (x y : Nat)
  | set (x i : Nat) (a : K)
  | get (x i : Nat)

/-- One call. -/
def step (avail : Nat → Bool) (z : K) (s : St K) : Op K → Res (Ans K × St K)
  | .alloc x order nc slice => SplinePrm.alloc avail z x order nc slice s
  | .free x => SplinePrm.free x s
  | .copy x y => SplinePrm.copy x y s
  | .clone x y => SplinePrm.clone avail x y s
  | .set x i a => setKnot x i a s
  | .get x i => getKnot x i s

/-- A history: the answers and the last state. -/
def run (avail : Nat → Bool) (z : K) : List (Op K) → St K → Res (List (Ans K) × St K)
  | [], s => .ok ([], s)
  | o :: os, s => (step avail z s o).bind fun r => (run avail z os r.2).bind fun q => .ok (r.1 :: q.1, q.2)

end Zm.SplinePrm
