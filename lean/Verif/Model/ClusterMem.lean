import Verif.Base.Res

/-! # Memory of sets of clusters (zm_mva_cluster.c)

The blocks are counted: a vector (its structure and its buffer together), a cell of a list and an array of silhouettes is one block each.  Which allocations succeed is arbitrary.  Which cluster a sample is put
into and moved to is arbitrary as well, as no block depends on it. -/

namespace Zm.ClusterMem
open Zm

/-- The number of allocations tried so far and the number of live blocks. -/
structure Led where
  t : Nat := 0
  live : Int := 0

/-- An allocation of one block. -/
def alloc (avail : Nat → Bool) (l : Led) : Bool × Led := (avail l.t, ⟨l.t + 1, if avail l.t then l.live + 1 else l.live⟩)

/-- The release of one block. -/
def free (l : Led) : Led := { l with live := l.live - 1 }

/-- `zVecCluster`, zm_mva_cluster.h:19-26, in its cell: the number of cells of its list of samples and whether there are silhouettes.  The core is always there. -/
structure Cl where
  cells : Nat := 0
  sil : Bool := false

/-- `zVecMultiCluster`, zm_mva_cluster.h:107-110: the clusters, the number of vectors of the method, and whether the function for the core is set. -/
structure MC where
  clusters : List Cl := []
  error : Bool := false
  lerr : Bool := false
  core : Bool := false

/-- The releases of a list of samples, zm_vec_list.c:181-189. -/
def cellsFree : Nat → Led → Led
  | 0, l => l
  | n+1, l => cellsFree n (free l)

/-- `zFree` and `zVecFree` of what may be null. -/
def freeIf (b : Bool) (l : Led) : Led := if b then free l else l

/-- `zVecClusterDestroy`, zm_mva_cluster.c:27-32. -/
def clusterDestroy (c : Cl) (l : Led) : Led := freeIf c.sil (free (cellsFree c.cells l))

/-- The loop of `zVecMultiClusterDestroy`, zm_mva_cluster.c:367-371, and of no other function. -/
def clustersDestroy : List Cl → Led → Led
  | [], l => l
  | c :: cs, l => clustersDestroy cs (free (clusterDestroy c l))

/-- `zVecMultiClusterDestroy`, zm_mva_cluster.c:363-373. -/
def destroy (mc : MC) (l : Led) : MC × Led := ({}, freeIf mc.lerr (freeIf mc.error (clustersDestroy mc.clusters l)))

/-- `zVecMultiClusterInit`, zm_mva_cluster.c:316-320, for a positive size: what was there is forgotten, and success is told. -/
def init (avail : Nat → Bool) (l : Led) : Bool × MC × Led :=
  let a := alloc avail l
  if !a.1 then (false, { core := true }, a.2)
  else
    let b := alloc avail a.2
    (b.1, { core := true, error := true, lerr := b.1 }, b.2)

/-- `zVecClusterMethodCopy`, zm_mva_cluster.c:296-302, from a complete method: the vectors are allocated anew. -/
def methodCopy (avail : Nat → Bool) (mc : MC) (l : Led) : Bool × MC × Led :=
  let a := alloc avail (freeIf mc.error l)
  if !a.1 then (false, { mc with core := true, error := false }, a.2)
  else
    let b := alloc avail (freeIf mc.lerr a.2)
    (b.1, { mc with core := true, error := true, lerr := b.1 }, b.2)

/-- The loop of `zVecMultiClusterAlloc`, zm_mva_cluster.c:334-345, with its exit for errors, zm_mva_cluster.c:348-350. -/
def allocLoop (avail : Nat → Bool) : Nat → MC → Led → Bool × MC × Led
  | 0, mc, l => (true, mc, l)
  | n+1, mc, l =>
    let a := alloc avail l
    if !a.1 then let d := destroy mc a.2; (false, d.1, d.2)
    else
      let b := alloc avail a.2
      if !b.1 then let d := destroy mc (free b.2); (false, d.1, d.2)
      else allocLoop avail n { mc with clusters := {} :: mc.clusters } b.2

/-- `zVecMultiClusterAlloc`, zm_mva_cluster.c:323-351: the list is initialised first. -/
def allocClusters (avail : Nat → Bool) (k : Nat) (mc : MC) (l : Led) : Bool × MC × Led :=
  let mc : MC := { mc with clusters := [] }
  if !mc.core then (false, mc, l) else allocLoop avail k mc l

/-- `zVecAddrListInsertHead`, zm_vec_list.c:169-172, and `zVecAddrListInsertTail` for the samples of the cluster `i`; there is no such cluster: undefined. -/
def insert (avail : Nat → Bool) (i : Nat) (mc : MC) (l : Led) : Res (Bool × MC × Led) :=
  match mc.clusters[i]? with
  | none => .ub
  | some c =>
    let a := alloc avail l
    if a.1 then .ok (true, { mc with clusters := mc.clusters.set i { c with cells := c.cells + 1 } }, a.2)
    else .ok (false, mc, a.2)

/-- Insertions into the clusters named, until one fails. -/
def inserts (avail : Nat → Bool) : List Nat → MC → Led → Res (Bool × MC × Led)
  | [], mc, l => .ok (true, mc, l)
  | i :: is, mc, l => (insert avail i mc l).bind fun r => if r.1 then inserts avail is r.2.1 r.2.2 else .ok r

/-- `_zVecMultiClusterKMeansInitPP`, zm_mva_cluster.c:550-594, where the samples are put into the clusters `is`, the seeds first. -/
def initPP (avail : Nat → Bool) (is : List Nat) (mc : MC) (l : Led) : Res (Bool × MC × Led) :=
  if is = [] then .ok (false, mc, l)
  else
    let a := alloc avail l
    if !a.1 then .ok (false, mc, a.2)
    else (inserts avail is mc a.2).bind fun r => .ok (r.1, r.2.1, free r.2.2)

/-- `_zVecMultiClusterKMeansInitKKZ`, zm_mva_cluster.c:506-547: the mean is computed in a vector that may be null, and released after the first seed. -/
def initKKZ (avail : Nat → Bool) (is : List Nat) (mc : MC) (l : Led) : Res (Bool × MC × Led) :=
  match is with
  | [] => .ok (false, mc, l)
  | i :: is =>
    let a := alloc avail l
    if !a.1 then .ub
    else (insert avail i mc a.2).bind fun r => if !r.1 then .ok r else inserts avail is r.2.1 (free r.2.2)

/-- A sample is moved from the cluster `i` to the cluster `j`, zm_mva_cluster.c:625-631. -/
def move (ij : Nat × Nat) (cs : List Cl) : List Cl :=
  match cs[ij.1]? with
  | none => cs
  | some c =>
    if c.cells = 0 then cs
    else
      let cs := cs.set ij.1 { c with cells := c.cells - 1 }
      match cs[ij.2]? with
      | none => cs.set ij.1 c
      | some d => cs.set ij.2 { d with cells := d.cells + 1 }

/-- `_zVecMultiClusterKMeansRecluster`, zm_mva_cluster.c:597-638, as the moves it makes. -/
def moves (ms : List (Nat × Nat)) (cs : List Cl) : List Cl := ms.foldl (fun cs ij => move ij cs) cs

/-- `zVecMultiClusterKMeansKKZ` and `zVecMultiClusterKMeans`, zm_mva_cluster.c:641-654: whether they succeed. -/
def kMeans (avail : Nat → Bool) (kkz : Bool) (k : Nat) (is : List Nat) (ms : List (Nat × Nat)) (mc : MC) (l : Led) : Res (Bool × MC × Led) :=
  let a := allocClusters avail k mc l
  if !a.1 then .ok a
  else (if kkz then initKKZ avail is a.2.1 a.2.2 else initPP avail is a.2.1 a.2.2).bind fun r =>
    if !r.1 then .ok r else .ok (true, { r.2.1 with clusters := moves ms r.2.1.clusters }, r.2.2)

/-- The loop of `zVecMultiClusterMeanSilhouette`, zm_mva_cluster.c:674-694: whether all could be allocated. -/
def silhouettes (avail : Nat → Bool) : List Cl → Led → Bool × List Cl × Led
  | [], l => (true, [], l)
  | c :: cs, l =>
    let a := alloc avail (freeIf c.sil l)
    if !a.1 then (false, { c with sil := false } :: cs, a.2)
    else
      let r := silhouettes avail cs a.2
      (r.1, { c with sil := true } :: r.2.1, r.2.2)

/-- `_zVecMultiClusterXMeansInit`, zm_mva_cluster.c:756-768, for `n` samples. -/
def xInit (avail : Nat → Bool) (n : Nat) (mc : MC) (l : Led) : Res (Bool × MC × Led) := inserts avail (List.replicate n 0) mc l

/-- `_zVecMultiClusterXMeans`, zm_mva_cluster.c:838-857: the clusters in the place of the cluster `c`.  `km` says for each turn into which clusters the samples are put and how they are moved, and `test` whether
the original is kept.  A failure of K-means, which the code does not notice, is not followed: it is `fail`.  The parts are those at the head and at the tail. -/
def xMeans (avail : Nat → Bool) (km : Nat → List Nat × List (Nat × Nat)) (test : Nat → Bool) : Nat → Nat → Cl → Led → Res (Nat × List Cl × Led)
  | 0, _, _, _ => .ub
  | fuel+1, pos, c, l =>
    if c.cells < 10 then .ok (pos, [c], l)
    else
      let i := init avail l
      if !i.1 then .ok (pos, [c], i.2.2)
      else
        let m := methodCopy avail i.2.1 i.2.2
        if !m.1 then .ok (pos, [c], m.2.2)
        else (kMeans avail false 2 (km pos).1 (km pos).2 m.2.1 m.2.2).bind fun r =>
          if !r.1 then .fail
          else if test pos then .ok (pos+1, [c], (destroy r.2.1 r.2.2).2)
          else
            match r.2.1.clusters with
            | [h, t] => (xMeans avail km test fuel (pos+1) h r.2.2).bind fun x => (xMeans avail km test fuel x.1 t x.2.2).bind fun y =>
              let l := free (clusterDestroy c y.2.2)
              .ok (y.1, x.2.1 ++ y.2.1, (destroy { r.2.1 with clusters := [] } l).2)
            | _ => .ub

/-- `zVecMultiClusterXMeans`, zm_mva_cluster.c:860-865. -/
def zXMeans (avail : Nat → Bool) (km : Nat → List Nat × List (Nat × Nat)) (test : Nat → Bool) (fuel n : Nat) (mc : MC) (l : Led) : Res (Bool × MC × Led) :=
  let a := allocClusters avail 1 mc l
  if !a.1 then .ok a
  else (xInit avail n a.2.1 a.2.2).bind fun r =>
    if !r.1 then .ok r
    else match r.2.1.clusters with
      | [c] => (xMeans avail km test fuel 0 c r.2.2).bind fun x => .ok (true, { r.2.1 with clusters := x.2.1 }, x.2.2)
      | _ => .ub

end Zm.ClusterMem
