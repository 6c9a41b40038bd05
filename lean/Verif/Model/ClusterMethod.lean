import Verif.Base.Res

/-!
# The methods of clustering and their workspaces (zm_mva_cluster.c:202-312)

What is observable is which functions are set and which vectors are allocated.  Vectors are handles on a heap that records which are live and how large they are; which allocations succeed is arbitrary.
Sizes are integers, as in the code.  The function pointers and utilities are only kept as set or not set.
-/

namespace Zm.ClusterMethod
open Zm

/-- Heap of vectors. -/
structure Heap where
  next : Nat := 0
  live : List Nat := []
  size : Nat → Int := fun _ => 0

/-- `zVecClusterMethod`, zm_mva_cluster.h:45-62. -/
structure Method where
  core : Bool := false
  coreSize : Int := 0
  err : Bool := false
  error : Option Nat := none
  dist : Bool := false
  lm : Bool := false
  lerr : Option Nat := none

/-- A method with its heap. -/
structure St where
  m : Method := {}
  h : Heap := {}

/-- `zVecAlloc`, zm_vec.c:31-45: nothing for sizes that are not positive and where the allocation fails. -/
def vecAlloc (avail : Nat → Bool) (size : Int) (h : Heap) : Option Nat × Heap :=
  if 0 < size ∧ avail h.next then (some h.next, ⟨h.next + 1, h.next :: h.live, fun i => if i = h.next then size else h.size i⟩)
  else (none, { h with next := h.next + 1 })

/-- `zVecFree`, zm_vec.c:61-66: a vector freed before is undefined. -/
def vecFree (v : Option Nat) (h : Heap) : Res Heap :=
  match v with
  | none => .ok h
  | some i => if i ∈ h.live then .ok { h with live := h.live.erase i } else .ub

/-- `zVecSize`, zm_vec.h:78. -/
def vecSize (v : Option Nat) (h : Heap) : Res Int :=
  match v with
  | none => .ok 0
  | some i => if i ∈ h.live then .ok (h.size i) else .ub

/-- `zVecClusterMethodInit`, zm_mva_cluster.c:202-220. -/
def init (s : St) : St := { s with m := {} }

/-- `zVecClusterMethodSetCoreFunc`, zm_mva_cluster.c:223-233: success and the state. -/
def setCore (size : Int) (s : St) : Res (Bool × St) :=
  if size ≤ 0 then .ok (false, s) else .ok (true, { s with m := { s.m with core := true, coreSize := size } })

/-- `zVecClusterMethodSetErrorFunc`, zm_mva_cluster.c:236-246. -/
def setError (avail : Nat → Bool) (size : Int) (s : St) : Res (Bool × St) :=
  (vecFree s.m.error s.h).bind fun h =>
    if size ≤ 0 then .ok (false, { s with h := h })
    else
      let a := vecAlloc avail size h
      .ok (a.1.isSome, { m := { s.m with err := true, error := a.1 }, h := a.2 })

/-- `zVecClusterMethodSetDistFunc`, zm_mva_cluster.c:249-254. -/
def setDist (s : St) : Res (Bool × St) := .ok (true, { s with m := { s.m with dist := true } })

/-- `zVecClusterMethodSetLoadedMeanFunc`, zm_mva_cluster.c:257-275: the third test asks for the function of the error again. -/
def setLoadedMean (avail : Nat → Bool) (s : St) : Res (Bool × St) :=
  if !s.m.core then .ok (false, s) else
  if !s.m.err then .ok (false, s) else
  if !s.m.err then .ok (false, s) else
  (vecFree s.m.lerr s.h).bind fun h => (vecSize s.m.error h).bind fun n =>
    let a := vecAlloc avail n h
    .ok (a.1.isSome, { m := { s.m with lm := true, lerr := a.1 }, h := a.2 })

/-- The second function if the first one succeeds. -/
def andThen (f g : St → Res (Bool × St)) (s : St) : Res (Bool × St) :=
  (f s).bind fun r => if r.1 then g r.2 else .ok r

/-- `zVecClusterMethodSetDefault`, zm_mva_cluster.c:278-285. -/
def setDefault (avail : Nat → Bool) (size : Int) (s : St) : Res (Bool × St) :=
  andThen (setCore size) (andThen (setError avail size) (andThen setDist (setLoadedMean avail))) (init s)

/-- `zVecClusterMethodSetLS`, zm_mva_cluster.c:288-293. -/
def setLS (avail : Nat → Bool) (s : St) : Res (Bool × St) :=
  andThen (setCore s.m.coreSize) (andThen (setError avail 1) (setLoadedMean avail)) s

/-- `zVecClusterMethodCopy`, zm_mva_cluster.c:296-302, to this method from one with a core of `coreSize` and an error of `errorSize` numbers. -/
def copyFrom (avail : Nat → Bool) (coreSize errorSize : Int) (s : St) : Res (Bool × St) :=
  andThen (setCore coreSize) (andThen (setError avail errorSize) (andThen setDist (setLoadedMean avail))) s

/-- `zVecClusterMethodDestroy`, zm_mva_cluster.c:305-310. -/
def destroy (s : St) : Res St :=
  (vecFree s.m.error s.h).bind fun h => (vecFree s.m.lerr h).bind fun h => .ok (init { s with h := h })

/-- A call by the user. -/
inductive Op where
  | core (size : Int)
  | error (size : Int)
  | dist
  | loadedMean
  | ls
  | copy (coreSize errorSize : Int)
  | destroy

/-- One call. -/
def step (avail : Nat → Bool) (s : St) : Op → Res (Bool × St)
  | .core size => setCore size s
  | .error size => setError avail size s
  | .dist => setDist s
  | .loadedMean => setLoadedMean avail s
  | .ls => setLS avail s
  | .copy c e => copyFrom avail c e s
  | .destroy => (destroy s).bind fun s => .ok (true, s)

/-- A history of calls, whatever each of them returns. -/
def run (avail : Nat → Bool) : List Op → St → Res St
  | [], s => .ok s
  | o :: l, s => (step avail s o).bind fun r => run avail l r.2

end Zm.ClusterMethod
