import Verif.Model.ClusterMem

/-! # Memory of Gaussian mixture models (zm_mva_gmm.c)

The blocks are counted as in `Model/ClusterMem.lean`: a vector, a matrix and a cell of a list is one block each.  Which allocations succeed is arbitrary, and so is the outcome of the K-means method.
The workspaces of the functions of the method and of the inverse of a matrix, which are released where they are allocated, are left out. -/

namespace Zm.GMMMem
open Zm
open Zm.ClusterMem (Led alloc free freeIf MC)

/-- `zGMMUnit`, zm_mva_gmm.h, in its cell: the sizes of its two vectors and two matrices, where they are not null. -/
structure GU where
  core : Option Nat := none
  cov : Option Nat := none
  inv : Option Nat := none
  ci : Option Nat := none
deriving DecidableEq

/-- A pointer to a vector: null, to a vector of the size told, or to one that has been released. -/
inductive Ptr where
  | null
  | vec (n : Nat)
  | gone
deriving DecidableEq

/-- `zGMM`: the units, from the tail of the list on, and of the method the size of cores and the two vectors. -/
structure GMM where
  units : List GU := []
  coreSize : Nat := 0
  error : Ptr := .null
  lerr : Option Nat := none
deriving DecidableEq

/-- `zVecAlloc` and `zMatAllocSqr`, zm_vec.c:31-45: none for a size which is not positive. -/
def vecAlloc (avail : Nat → Bool) (n : Nat) (l : Led) : Option Nat × Led :=
  if n = 0 then (none, { l with t := l.t + 1 })
  else
    let a := alloc avail l
    (if a.1 then some n else none, a.2)

/-- `zVecFree` and `zMatFree` of what may be null, zm_vec.c:61-66. -/
def freeOpt (p : Option Nat) (l : Led) : Led := freeIf p.isSome l

/-- `zVecFree` of the vector for errors: what has been released must not be released again. -/
def freePtr (p : Ptr) (l : Led) : Res Led :=
  match p with
  | .null => .ok l
  | .vec _ => .ok (free l)
  | .gone => .ub

/-- `_zGMMUnitCoreAlloc`, zm_mva_gmm.c:26-30. -/
def coreAlloc (avail : Nat → Bool) (n : Nat) (u : GU) (l : Led) : Bool × GU × Led :=
  let a := vecAlloc avail n (freeOpt u.core l)
  (a.1.isSome, { u with core := a.1 }, a.2)

/-- `_zGMMUnitErrorAlloc`, zm_mva_gmm.c:33-42. -/
def errorAlloc (avail : Nat → Bool) (n : Nat) (u : GU) (l : Led) : Bool × GU × Led :=
  let a := vecAlloc avail n (freeOpt u.ci (freeOpt u.inv (freeOpt u.cov l)))
  let b := vecAlloc avail n a.2
  let c := vecAlloc avail n b.2
  (a.1.isSome && b.1.isSome && c.1.isSome, { u with cov := a.1, inv := b.1, ci := c.1 }, c.2)

/-- `zGMMUnitAlloc`, zm_mva_gmm.c:45-51. -/
def unitAlloc (avail : Nat → Bool) (n : Nat) (u : GU) (l : Led) : Bool × GU × Led :=
  let a := coreAlloc avail n u l
  if !a.1 then a else errorAlloc avail n a.2.1 a.2.2

/-- `zGMMUnitFree`, zm_mva_gmm.c:54-60. -/
def unitFree (u : GU) (l : Led) : Led := freeOpt u.ci (freeOpt u.inv (freeOpt u.cov (freeOpt u.core l)))

/-- `_zGMMCoreAlloc` and `_zGMMErrorAlloc`, zm_mva_gmm.c:113-129: one unit after the other until one fails. -/
def each (f : GU → Led → Bool × GU × Led) : List GU → Led → Bool × List GU × Led
  | [], l => (true, [], l)
  | u :: us, l =>
    let a := f u l
    if !a.1 then (false, a.2.1 :: us, a.2.2)
    else
      let r := each f us a.2.2
      (r.1, a.2.1 :: r.2.1, r.2.2)

/-- The loop of `zGMMDestroy`, zm_mva_gmm.c:201-205. -/
def unitsFree : List GU → Led → Led
  | [], l => l
  | u :: us, l => unitsFree us (free (unitFree u l))

/-- `zGMMDestroy`, zm_mva_gmm.c:197-207, with `zVecClusterMethodDestroy`, zm_mva_cluster.c:305-310. -/
def destroy (g : GMM) (l : Led) : Res (GMM × Led) :=
  (freePtr g.error (unitsFree g.units l)).bind fun l => .ok ({}, freeOpt g.lerr l)

/-- `zVecClusterMethodSetErrorFunc`, zm_mva_cluster.c:236-246: the vector is released first, whatever the size. -/
def methodError (avail : Nat → Bool) (n : Nat) (g : GMM) (l : Led) : Res (Bool × GMM × Led) :=
  (freePtr g.error l).bind fun l =>
    if n = 0 then .ok (false, { g with error := if g.error = .null then .null else .gone }, l)
    else
      let a := alloc avail l
      .ok (a.1, { g with error := if a.1 then .vec n else .null }, a.2)

/-- `zVecClusterMethodSetLoadedMeanFunc`, zm_mva_cluster.c:257-275, where the functions are set: the size is that of the vector for errors. -/
def methodLoaded (avail : Nat → Bool) (g : GMM) (l : Led) : Res (Bool × GMM × Led) :=
  match g.error with
  | .gone => .ub
  | .null =>
    let a := vecAlloc avail 0 (freeOpt g.lerr l)
    .ok (a.1.isSome, { g with lerr := a.1 }, a.2)
  | .vec n =>
    let a := vecAlloc avail n (freeOpt g.lerr l)
    .ok (a.1.isSome, { g with lerr := a.1 }, a.2)

/-- `zVecClusterMethodSetDefault`, zm_mva_cluster.c:278-285: what the method has had is forgotten. -/
def methodDefault (avail : Nat → Bool) (n : Nat) (g : GMM) (l : Led) : Res (Bool × GMM × Led) :=
  let g : GMM := { g with coreSize := 0, error := .null, lerr := none }
  if n = 0 then .ok (false, g, l)
  else (methodError avail n { g with coreSize := n } l).bind fun r => if !r.1 then .ok r else methodLoaded avail r.2.1 r.2.2

/-- The loop of `zGMMInit`, zm_mva_gmm.c:138-150: whether all units could be allocated, the units in the list and the blocks.  A unit that cannot be completed is dropped with its cell. -/
def initLoop (avail : Nat → Bool) (n : Nat) : Nat → List GU → Led → Bool × List GU × Led
  | 0, us, l => (true, us, l)
  | k+1, us, l =>
    let a := alloc avail l
    if !a.1 then (false, us, a.2)
    else
      let u := unitAlloc avail n {} a.2
      if !u.1 then (false, us, free u.2.2)
      else initLoop avail n k (u.2.1 :: us) u.2.2

/-- `zGMMInit`, zm_mva_gmm.c:132-160: on a failure the method is initialised and the model is destroyed. -/
def init (avail : Nat → Bool) (k n : Nat) (l : Led) : Res (Bool × GMM × Led) :=
  let r := initLoop avail n k [] l
  if !r.1 then (destroy { units := r.2.1 } r.2.2).bind fun d => .ok (false, d)
  else (methodDefault avail n { units := r.2.1 } r.2.2).bind fun m =>
    if !m.1 then (destroy { m.2.1 with coreSize := 0, error := .null, lerr := none } m.2.2).bind fun d => .ok (false, d)
    else .ok m

/-- `zGMMSetErrorFunc`, zm_mva_gmm.c:163-167. -/
def setError (avail : Nat → Bool) (n : Nat) (g : GMM) (l : Led) : Res (Bool × GMM × Led) :=
  (methodError avail n g l).bind fun r =>
    if !r.1 then .ok r
    else
      let e := each (errorAlloc avail n) r.2.1.units r.2.2
      .ok (e.1, { r.2.1 with units := e.2.1 }, e.2.2)

/-- `zGMMSetCoreFunc`, zm_mva_gmm.c:176-180, with `zVecClusterMethodSetCoreFunc`, zm_mva_cluster.c:223-233. -/
def setCore (avail : Nat → Bool) (n : Nat) (g : GMM) (l : Led) : Res (Bool × GMM × Led) :=
  if n = 0 then .ok (false, g, l)
  else
    let e := each (coreAlloc avail n) g.units l
    .ok (e.1, { g with coreSize := n, units := e.2.1 }, e.2.2)

/-- `zGMMSetMethodLS`, zm_mva_gmm.c:189-194. -/
def setLS (avail : Nat → Bool) (g : GMM) (l : Led) : Res (Bool × GMM × Led) :=
  (setError avail 1 g l).bind fun r => if !r.1 then .ok r else
  (setCore avail r.2.1.coreSize r.2.1 r.2.2).bind fun r => if !r.1 then .ok r else methodLoaded avail r.2.1 r.2.2

/-- Whether the sizes in all units are those of the method. -/
def fits (g : GMM) (n : Nat) : Bool := g.units.all fun u => u.core == some g.coreSize && u.cov == some n && u.inv == some n && u.ci == some n

/-- `zGMMCreateEM`, zm_mva_gmm.c:288-335, for samples that the K-means method puts into the clusters `is` and moves as `ms` says: what it returns and the blocks.  Units whose sizes do not fit
are taken as undefined. -/
def createEM (avail : Nat → Bool) (is : List Nat) (ms : List (Nat × Nat)) (g : GMM) (l : Led) : Res (Bool × Led) :=
  let i : Bool × MC × Led := if g.coreSize = 0 then (false, {}, l) else ClusterMem.init avail l
  if !i.1 then .ok (false, i.2.2)
  else match g.error with
    | .gone => .ub
    | .null => .ok (false, freeIf i.2.1.error i.2.2)
    | .vec n =>
      let m := ClusterMem.methodCopy avail i.2.1 i.2.2
      if !m.1 then .ok (false, m.2.2)
      else
        let k := g.units.length
        let a := vecAlloc avail (k * is.length) m.2.2
        let b := vecAlloc avail (k * is.length) a.2
        let c := vecAlloc avail is.length b.2
        let d := vecAlloc avail k c.2
        let done := fun l => freeOpt d.1 (freeOpt c.1 (freeOpt b.1 (freeOpt a.1 l)))
        if !(a.1.isSome && b.1.isSome && c.1.isSome && d.1.isSome) then .ok (false, done d.2)
        else (ClusterMem.kMeans avail false k is ms m.2.1 d.2).bind fun r =>
          if !fits g n then .ub else .ok (true, done (ClusterMem.destroy r.2.1 r.2.2).2)

/-- A call for a model; the setters of the function for distances have no part in it. -/
inductive Op where
  | setError (n : Nat)
  | setCore (n : Nat)
  | setLoaded
  | setLS
  | createEM (is : List Nat) (ms : List (Nat × Nat))

/-- The effect of a call. -/
def step (avail : Nat → Bool) (o : Op) (g : GMM) (l : Led) : Res (Bool × GMM × Led) :=
  match o with
  | .setError n => setError avail n g l
  | .setCore n => setCore avail n g l
  | .setLoaded => methodLoaded avail g l
  | .setLS => setLS avail g l
  | .createEM is ms => (createEM avail is ms g l).bind fun r => .ok (r.1, g, r.2)

/-- The effects of calls, and what they return. -/
def run (avail : Nat → Bool) : List Op → GMM → Led → Res (List Bool × GMM × Led)
  | [], g, l => .ok ([], g, l)
  | o :: os, g, l => (step avail o g l).bind fun r => (run avail os r.2.1 r.2.2).bind fun q => .ok (r.1 :: q.1, q.2)

end Zm.GMMMem
