import Verif.Model.Cluster
import Verif.Model.DataMore

/-!
# Mean and largest silhouettes, creation of a cluster (zm_mva_cluster.c)

The clusters are as in `Model/Cluster.lean`; the silhouettes kept in a cluster are `none` for NULL.  Allocations of the silhouettes do not fail here (`Model/ClusterMem.lean` has the failures).
-/

namespace Zm.Clus
open Zm

variable {K P : Type*} [Field K] [LinearOrder K] [DecidableEq P]

/-- The loop over the samples of a cluster, zm_mva_cluster.c:681-691: their silhouettes in the order of the samples. -/
def silSamples (f : P → Res K) : List P → Res (List K)
  | [] => .ok []
  | p :: ps => (f p).bind fun s => (silSamples f ps).bind fun ss => .ok (s :: ss)

/-- One cluster, zm_mva_cluster.c:675-693: the silhouettes kept, the score and the number of samples so far. -/
def silCluster (sort : (K → K → Int) → List K → List K) (dist : P → P → K) (k : Nat) (cl : Nat → List P) (a : Nat) (st : (Nat → Option (List K)) × K × Nat) :
    Res ((Nat → Option (List K)) × K × Nat) :=
  (silSamples (silhouette dist k cl a) (cl a)).bind fun ss =>
    .ok (upd st.1 a (some (Data.zDataSort sort ss)), ss.foldl (fun score s => score + s) st.2.1, st.2.2 + (cl a).length)

/-- `zVecMultiClusterMeanSilhouette`, zm_mva_cluster.c:668-696: the silhouettes kept in the clusters and the mean; a mean over no samples is undefined. -/
def meanSilhouette (sort : (K → K → Int) → List K → List K) (dist : P → P → K) (k : Nat) (cl : Nat → List P) (sil : Nat → Option (List K)) :
    Res ((Nat → Option (List K)) × K) :=
  (forUpM 0 k (silCluster sort dist k cl) (sil, 0, 0)).bind fun st => if st.2.2 = 0 then .ub else .ok (st.1, st.2.1 / (st.2.2 : K))

/-- `zVecClusterMaxSilhouette`, zm_mva_cluster.c:35-38, of a null pointer or a cluster with a number of samples and silhouettes; `none` is -HUGE_VAL.
The silhouette at the number of samples less one is read without a check: undefined if there is none. -/
def maxSilhouette : Option (Nat × Option (List K)) → Res (Option K)
  | none => .ok none
  | some (_, none) => .ok none
  | some (0, some _) => .ub
  | some (n+1, some ss) => match ss[n]? with
    | some s => .ok (some s)
    | none => .ub

/-- The pointer to the silhouettes of a cluster: never written, null, or an array. -/
inductive SilPtr
  | wild
  | null
  | array
  deriving DecidableEq

/-- `zVecClusterDestroy`, zm_mva_cluster.c:27-32, of an empty cluster without a core: the silhouettes are released. -/
def clusterDestroy0 : SilPtr → Res Unit
  | .wild => .ub
  | _ => .ok ()

/-- `zVecClusterCreate`, zm_mva_cluster.c:14-24, on a structure whose pointer to silhouettes is `p`, when the core can be allocated or not: the pointer of the cluster created, or null. -/
def clusterCreate (core : Bool) (p : SilPtr) : Res (Option SilPtr) :=
  if core then .ok (some .null) else (clusterDestroy0 p).bind fun _ => .ok none

end Zm.Clus
