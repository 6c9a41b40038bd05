import Verif.Base.Res
import Mathlib.Algebra.Order.Field.Basic

/-!
# Growing neural gas (zm_gng.c)

Units and edges are numbered in the order of their creation; a number stands for the address of a cell, and the numbers
of freed cells are not used again.  Lists are kept in the order of `zListForEach`, from the tail (the oldest cell) to the
head.  Access to a cell that is not in its list is undefined.  Vectors are of any type, with arbitrary functions for the
squared distance, the division point and the middle point; the sampler is an arbitrary sequence.  Allocation does not fail.
-/

namespace Zm.GNG

/-- `zGNGEdgeData`, zm_gng.h. -/
structure Edge where
  age : Int
  u1 : Nat
  u2 : Nat
  deriving DecidableEq

/-- `zGNG`, zm_gng.h: the units with their vectors, errors and lists of edges (by pointers), the edges, and the next numbers. -/
structure Net (K V : Type*) where
  units : List Nat
  v : Nat → V
  err : Nat → K
  ep : Nat → List Nat
  edges : List Nat
  ed : Nat → Edge
  nu : Nat
  ne : Nat

/-- The parameters of `zGNG` and the vector functions. -/
structure Par (K V : Type*) where
  lifetime : Int
  cClosest : K
  cNeighbor : K
  r1 : K
  r2 : K
  batch : Nat
  sqrDist : V → V → K
  interDiv : V → V → K → V
  mid : V → V → V

variable {K V : Type*} [Field K] [LinearOrder K]

/-- A function changed at one place. -/
def upd {α : Type*} (f : Nat → α) (i : Nat) (a : α) : Nat → α := fun j => if j = i then a else f j

/-- `_zGNGUnitOther`, zm_gng.c:46-49. -/
def other (u : Nat) (e : Edge) : Nat := if e.u1 = u then e.u2 else e.u1

/-- `_zGNGUnitPurgeEdge` and the removal of a unit without edges, zm_gng.c:51-63, 86-90 and each half of 94-97. -/
def purgeEnd (s : Net K V) (e u : Nat) : Net K V :=
  if (s.ep u).erase e = [] then { s with ep := upd s.ep u [], units := s.units.erase u }
  else { s with ep := upd s.ep u ((s.ep u).erase e) }

/-- `_zGNGPurgeEdge`, zm_gng.c:92-101. -/
def purgeEdge (s : Net K V) (e : Nat) : Res (Net K V) :=
  if e ∈ s.edges ∧ (s.ed e).u1 ∈ s.units then
    let s1 := purgeEnd s e (s.ed e).u1
    if (s.ed e).u2 ∈ s1.units then
      let s2 := purgeEnd s1 e (s.ed e).u2
      .ok { s2 with edges := s2.edges.erase e }
    else .ub
  else .ub

/-- `_zGNGConnect`, zm_gng.c:103-126. -/
def connect (s : Net K V) (u1 u2 : Nat) : Res (Net K V) :=
  if u1 ∈ s.units ∧ u2 ∈ s.units then
    let ep := upd s.ep u1 (s.ep u1 ++ [s.ne])
    .ok { s with ed := upd s.ed s.ne ⟨0, u1, u2⟩, edges := s.edges ++ [s.ne], ep := upd ep u2 (ep u2 ++ [s.ne]), ne := s.ne + 1 }
  else .ub

/-- The test of lines 133-134. -/
def joins (e : Edge) (u1 u2 : Nat) : Bool := (e.u1 = u1 ∧ e.u2 = u2) ∨ (e.u1 = u2 ∧ e.u2 = u1)

/-- `_zGNGDisconnect`, zm_gng.c:128-140. -/
def disconnect (s : Net K V) (u1 u2 : Nat) : Res (Net K V) :=
  match s.edges.find? fun e => joins (s.ed e) u1 u2 with
  | some e => purgeEdge s e
  | none => .ok s

/-- `_zGNGUnitAlloc` and the insertion at the head, zm_gng.c:21-33, 172, 173 and 289. -/
def addUnit (s : Net K V) (v : V) (err : K) : Net K V :=
  { s with units := s.units ++ [s.nu], v := upd s.v s.nu v, err := upd s.err s.nu err, ep := upd s.ep s.nu [], nu := s.nu + 1 }

/-- The loop of `zGNGInit` for its second sample, zm_gng.c:168-170; `eq` is `zVecEqual` with zTOL. -/
def secondSample (eq : V → V → Bool) (x : Nat → V) : Nat → Nat → Res V
  | 0, _ => .ub
  | k+1, i => if eq (x i) (x 0) then secondSample eq x k (i+1) else .ok (x i)

/-- `zGNGInit`, zm_gng.c:143-184. -/
def zGNGInit (eq : V → V → Bool) (x : Nat → V) (fuel : Nat) : Res (Net K V) :=
  match secondSample eq x fuel 1 with
  | .ok y => connect (addUnit (addUnit ⟨[], fun _ => x 0, fun _ => 0, fun _ => [], [], fun _ => ⟨0, 0, 0⟩, 0, 0⟩ (x 0) 0) y 0) 0 1
  | .fail => .fail
  | .ub => .ub

/-- `zGNGDestroy`, zm_gng.c:187-196, at most `k` turns. -/
def zGNGDestroy : Nat → Net K V → Res (Net K V)
  | k, s =>
    match s.edges.getLast? with
    | none => .ok s
    | some e =>
      match k with
      | 0 => .ub
      | k+1 =>
        match purgeEdge s e with
        | .ok s => zGNGDestroy k s
        | .fail => .fail
        | .ub => .ub

/-- Comparison with a distance that may be HUGE_VAL. -/
def ltInf (d : K) : Option K → Prop
  | none => True
  | some m => d < m

instance (d : K) (m : Option K) : Decidable (ltInf d m) := by
  cases m <;> unfold ltInf <;> infer_instance

/-- What `_zGNGFindProximity2` holds. -/
structure Prox (K : Type*) where
  u1 : Nat
  d1 : Option K
  u2 : Nat
  d2 : Option K

/-- One turn of `_zGNGFindProximity2`, zm_gng.c:205-215. -/
def proxStep (d : Nat → K) (p : Prox K) (u : Nat) : Prox K :=
  if ltInf (d u) p.d1 then ⟨u, some (d u), p.u1, p.d1⟩
  else if ltInf (d u) p.d2 then ⟨p.u1, p.d1, u, some (d u)⟩
  else p

/-- `_zGNGFindProximity2`, zm_gng.c:198-217. -/
def findProximity2 (d : Nat → K) : List Nat → Res (Nat × Nat)
  | [] => .ub
  | t :: l => let p := (t :: l).foldl (proxStep d) ⟨t, none, t, none⟩
              .ok (p.u1, p.u2)

/-- One turn of the searches for the largest error, zm_gng.c:225 and 238. -/
def maxStep (f : Nat → K) (p u : Nat) : Nat := if f u ≥ f p then u else p

/-- `_zGNGFindPivot`, zm_gng.c:219-228. -/
def findPivot (f : Nat → K) : List Nat → Res Nat
  | [] => .ub
  | t :: l => .ok ((t :: l).foldl (maxStep f) t)

/-- `_zGNGFindSeed`, zm_gng.c:230-241. -/
def findSeed (s : Net K V) (pivot : Nat) : Res Nat :=
  if ∀ e ∈ s.ep pivot, e ∈ s.edges ∧ other pivot (s.ed e) ∈ s.units then findPivot s.err ((s.ep pivot).map fun e => other pivot (s.ed e))
  else .ub

/-- One turn of the loop of `_zGNGAdapt`, zm_gng.c:253-259. -/
def adaptStep (p : Par K V) (x : V) (u1 u2 : Nat) (s : Net K V) (e : Nat) : Net K V :=
  { s with v := upd s.v (other u1 (s.ed e)) (p.interDiv (s.v (other u1 (s.ed e))) x p.cNeighbor),
           ed := upd s.ed e { s.ed e with age := if other u1 (s.ed e) = u2 then 0 else (s.ed e).age + 1 } }

/-- The loop of `_zGNGAdapt`, zm_gng.c:252-260, with the flag `u2_is_neighbor`. -/
def adaptLoop (p : Par K V) (x : V) (u1 u2 : Nat) : List Nat → Net K V → Bool → Res (Net K V × Bool)
  | [], s, b => .ok (s, b)
  | e :: l, s, b =>
    if e ∈ s.edges ∧ other u1 (s.ed e) ∈ s.units then
      adaptLoop p x u1 u2 l (adaptStep p x u1 u2 s e) (if other u1 (s.ed e) = u2 then true else b)
    else .ub

/-- Lines 250-251: the error and the vector of the closest unit. -/
def adaptClosest (p : Par K V) (x : V) (s : Net K V) (u1 : Nat) : Net K V :=
  { s with err := upd s.err u1 (s.err u1 + p.sqrDist (s.v u1) x), v := upd s.v u1 (p.interDiv (s.v u1) x p.cClosest) }

/-- `_zGNGAdapt`, zm_gng.c:243-263. -/
def adapt (p : Par K V) (x : V) (s : Net K V) : Res (Net K V) :=
  match findProximity2 (fun u => p.sqrDist x (s.v u)) s.units with
  | .ok (u1, u2) =>
    match adaptLoop p x u1 u2 (s.ep u1) (adaptClosest p x s u1) false with
    | .ok (s, true) => .ok s
    | .ok (s, false) => connect s u1 u2
    | .fail => .fail
    | .ub => .ub
  | .fail => .fail
  | .ub => .ub

/-- `_zGNGRemoveAgedEdge`, zm_gng.c:265-276.  The list is that of the edges before the loop: the loop steps back to the previous cell before it removes one. -/
def removeAged (lifetime : Int) : List Nat → Net K V → Res (Net K V)
  | [], s => .ok s
  | e :: l, s =>
    if (s.ed e).age > lifetime then
      match purgeEdge s e with
      | .ok s => removeAged lifetime l s
      | .fail => .fail
      | .ub => .ub
    else removeAged lifetime l s

/-- `_zGNGGrow`, zm_gng.c:278-297. -/
def grow (p : Par K V) (s : Net K V) : Res (Net K V) :=
  match findPivot s.err s.units with
  | .ok u1 =>
    match findSeed s u1 with
    | .ok u2 =>
      let err1 := upd s.err u1 (s.err u1 * p.r1)
      let err2 := upd err1 u2 (err1 u2 * p.r1)
      let ur := s.nu
      match connect (addUnit { s with err := err2 } (p.mid (s.v u1) (s.v u2)) (err2 u1)) u1 ur with
      | .ok s =>
        match connect s u2 ur with
        | .ok s =>
          match disconnect s u1 u2 with
          | .ok s => .ok { s with err := fun u => if u ∈ s.units then s.err u * p.r2 else s.err u }
          | .fail => .fail
          | .ub => .ub
        | .fail => .fail
        | .ub => .ub
      | .fail => .fail
      | .ub => .ub
    | .fail => .fail
    | .ub => .ub
  | .fail => .fail
  | .ub => .ub

/-- The batch of `zGNGUpdate`, zm_gng.c:304-307: `n` more samples from `x i`. -/
def batch (p : Par K V) (x : Nat → V) : Nat → Nat → Net K V → Res (Net K V)
  | 0, _, s => .ok s
  | n+1, i, s =>
    match adapt p (x i) s with
    | .ok s =>
      match removeAged p.lifetime s.edges s with
      | .ok s => batch p x n (i+1) s
      | .fail => .fail
      | .ub => .ub
    | .fail => .fail
    | .ub => .ub

/-- `zGNGUpdate`, zm_gng.c:300-309. -/
def zGNGUpdate (p : Par K V) (x : Nat → V) (s : Net K V) : Res (Net K V) :=
  match batch p x p.batch 0 s with
  | .ok s => grow p s
  | .fail => .fail
  | .ub => .ub

end Zm.GNG
