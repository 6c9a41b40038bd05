import Verif.Base.Res
import Verif.Base.Fn
import Mathlib.Algebra.Order.Field.Basic
import Mathlib.Algebra.BigOperators.Group.List.Basic

/-!
# Clustering (zm_mva_cluster.c)

A point is an address, compared for identity only, of type `P`; cores are of type `C`.  The methods are arbitrary
functions: the distance `dist` of two points, the squared norm of the error `err` of a point from a core, and the core
`core` of a list of points, which may be undefined.  Clusters are numbered from the tail of the list of clusters, and
lists of points are in the order of `zListForEach`, from the tail.  Random integers below `m` are `rnd pos m`, random
numbers of `[0,1]` are `U pos`.  Allocation does not fail.
-/

namespace Zm.Clus

variable {K P C : Type*} [Field K] [LinearOrder K] [DecidableEq P]

/-- Comparison with a value that may be HUGE_VAL. -/
def ltInf (d : K) : Option K → Prop
  | none => True
  | some m => d < m

instance (d : K) (m : Option K) : Decidable (ltInf d m) := by
  cases m <;> unfold ltInf <;> infer_instance

/-- A function changed at one place. -/
def upd {α : Type*} (f : Nat → α) (i : Nat) (a : α) : Nat → α := fun j => if j = i then a else f j

/-! ## Initial clusters -/

/-- The inner loop of `_zVecMultiClusterKMeansInitCluster`, zm_mva_cluster.c:490-499: `none` when the point is a seed.  The tail of every list is its seed, since points are
inserted at the head. -/
def nearestSeed (dist : P → P → K) (p : P) : List P → Nat → Option K → Option Nat → Res (Option Nat)
  | [], _, _, none => .ub
  | [], _, _, some c => .ok (some c)
  | s :: l, i, dmin, c =>
    if p = s then .ok none
    else if ltInf (dist p s) dmin then nearestSeed dist p l (i+1) (some (dist p s)) (some i)
    else nearestSeed dist p l (i+1) dmin c

/-- `_zVecMultiClusterKMeansInitCluster`, zm_mva_cluster.c:483-503. -/
def initCluster (dist : P → P → K) (seeds : List P) : List P → (Nat → List P) → Res (Nat → List P)
  | [], cl => .ok cl
  | p :: l, cl =>
    match nearestSeed dist p seeds 0 none none with
    | .ok none => initCluster dist seeds l cl
    | .ok (some i) => initCluster dist seeds l (upd cl i (cl i ++ [p]))
    | .fail => .fail
    | .ub => .ub

/-- The clusters that hold only their seeds. -/
def seedClusters (seeds : List P) : Nat → List P := fun i => (seeds[i]?).toList

/-- The distance from the nearest of the seeds so far, zm_mva_cluster.c:535-538 and 573-576; there is at least one, so the comparison with HUGE_VAL is left out. -/
def minDist (dist : P → P → K) (p s : P) (seeds : List P) : K := seeds.foldl (fun m s => if dist p s < m then dist p s else m) (dist p s)

/-- The searches for the farthest point, zm_mva_cluster.c:521-526 and 534-543. -/
def farthest (f : P → K) : List P → K → Option P → Option P
  | [], _, r => r
  | p :: l, dmax, r => if f p > dmax then farthest f l (f p) (some p) else farthest f l dmax r

/-- The second to the last seed by the method of Katsavounidis, Kuo and Zhang, zm_mva_cluster.c:531-545; `n` more of them.  No farthest point is a null pointer. -/
def seedsKKZ (dist : P → P → K) (points : List P) (s0 : P) : Nat → List P → Res (List P)
  | 0, seeds => .ok (s0 :: seeds)
  | n+1, seeds =>
    match farthest (fun p => minDist dist p s0 seeds) points 0 none with
    | none => .ub
    | some p => seedsKKZ dist points s0 n (seeds ++ [p])

/-- `_zVecMultiClusterKMeansInitKKZ`, zm_mva_cluster.c:506-547, for `k` clusters; `d0` is the distance of a point from the mean. -/
def initKKZ (dist : P → P → K) (d0 : P → K) (points : List P) (k : Nat) : Res (Nat → List P) :=
  if points = [] then .fail
  else match farthest d0 points 0 none, k with
    | none, _ => .ub
    | _, 0 => .ub
    | some s0, k+1 =>
      match seedsKKZ dist points s0 k [] with
      | .ok seeds => initCluster dist seeds points (seedClusters seeds)
      | .fail => .fail
      | .ub => .ub

/-- The roulette, zm_mva_cluster.c:582-587; beyond the end of the list the root cell is read. -/
def roulette (u : K) : List (P × K) → K → Res P
  | [], _ => .ub
  | (p, s) :: l, rate => if rate + s ≥ u then .ok p else roulette u l (rate + s)

/-- The choice of the next seed, zm_mva_cluster.c:571-588; `zVecDivDRC` refuses a divisor up to the tolerance. -/
def pickPP (tol : K) (dist : P → P → K) (points : List P) (s0 : P) (seeds : List P) (u : K) : Res P :=
  let score := points.map fun p => minDist dist p s0 seeds * minDist dist p s0 seeds
  let sum := score.sum
  roulette u (points.zip (if |sum| ≤ tol then score else score.map (· / sum))) 0

/-- The second to the last seed of K-means++, zm_mva_cluster.c:570-589; `n` more of them. -/
def seedsPP (tol : K) (dist : P → P → K) (points : List P) (s0 : P) (U : Nat → K) : Nat → Nat → List P → Res (List P)
  | 0, _, seeds => .ok (s0 :: seeds)
  | n+1, pos, seeds =>
    match pickPP tol dist points s0 seeds (U pos) with
    | .ok p => seedsPP tol dist points s0 U n (pos+1) (seeds ++ [p])
    | .fail => .fail
    | .ub => .ub

/-- `_zVecMultiClusterKMeansInitPP`, zm_mva_cluster.c:550-594, for `k` clusters. -/
def initPP (tol : K) (dist : P → P → K) (rnd : Nat → Nat → Nat) (U : Nat → K) (pos : Nat) (points : List P) (k : Nat) : Res (Nat → List P) :=
  if points = [] then .fail
  else match points[rnd pos points.length]?, k with
    | none, _ => .ub
    | _, 0 => .ub
    | some s0, k+1 =>
      match seedsPP tol dist points s0 U k (pos+1) [] with
      | .ok seeds => initCluster dist seeds points (seedClusters seeds)
      | .fail => .fail
      | .ub => .ub

/-! ## Reclustering -/

/-- The search for the nearest core, zm_mva_cluster.c:616-624: `f i` is the error from the core of the cluster `i`. -/
def nearest (k : Nat) (f : Nat → K) (a : Nat) : Nat :=
  (forUp 0 k (fun i (st : Option K × Nat) => if ltInf (f i) st.1 then (some (f i), i) else st) (none, a)).2

/-- Lines 625-631: a point of the cluster `a` moves to the nearest cluster. -/
def moveStep (near : P → Nat → Nat) (a : Nat) (st : (Nat → List P) × Bool) (p : P) : (Nat → List P) × Bool :=
  if near p a ≠ a then
    let cl := upd st.1 a ((st.1 a).erase p)
    (upd cl (near p a) (cl (near p a) ++ [p]), true)
  else st

/-- Lines 615-632: all points of one cluster.  No point enters the cluster meanwhile, and the loop steps back before it removes a cell: the points visited are those at the
beginning. -/
def moveCluster (near : P → Nat → Nat) (a : Nat) (st : (Nat → List P) × Bool) : (Nat → List P) × Bool :=
  (st.1 a).foldl (moveStep near a) st

/-- Lines 612-633: all clusters. -/
def movePass (near : P → Nat → Nat) (k : Nat) (cl : Nat → List P) : (Nat → List P) × Bool :=
  forUp 0 k (moveCluster near) (cl, false)

/-- Lines 608-611: the cores.  The variances are left out. -/
def coresLoop (core : List P → Res C) (cl : Nat → List P) (a : Nat) (cores : Nat → C) : Res (Nat → C) :=
  match core (cl a) with
  | .ok c => .ok (upd cores a c)
  | .fail => .fail
  | .ub => .ub

/-- `_zVecMultiClusterKMeansRecluster`, zm_mva_cluster.c:597-638, `n` more turns after the turn `i`: the number of turns, the clusters, their cores, and whether they settled. -/
def recluster (core : List P → Res C) (err : P → C → K) (k : Nat) : Nat → Nat → (Nat → List P) → (Nat → C) → Res (Nat × (Nat → List P) × (Nat → C) × Bool)
  | 0, i, cl, cores => .ok (i, cl, cores, false)
  | n+1, i, cl, cores =>
    match forUpM 0 k (coresLoop core cl) cores with
    | .ok cores =>
      match movePass (fun p a => nearest k (fun b => err p (cores b)) a) k cl with
      | (cl, true) => recluster core err k n (i+1) cl cores
      | (cl, false) => .ok (i, cl, cores, true)
    | .fail => .fail
    | .ub => .ub

/-- `zVecMultiClusterKMeansKKZ`, zm_mva_cluster.c:641-646; ZITERINIT gives 10000 turns. -/
def zKMeansKKZ (core : List P → Res C) (err : P → C → K) (dist : P → P → K) (d0 : P → K) (points : List P) (k : Nat) (cores : Nat → C) :
    Res (Nat × (Nat → List P) × (Nat → C) × Bool) :=
  match initKKZ dist d0 points k with
  | .ok cl => recluster core err k 10000 0 cl cores
  | .fail => .fail
  | .ub => .ub

/-- `zVecMultiClusterKMeans`, zm_mva_cluster.c:649-654. -/
def zKMeans (tol : K) (core : List P → Res C) (err : P → C → K) (dist : P → P → K) (rnd : Nat → Nat → Nat) (U : Nat → K) (pos : Nat) (points : List P) (k : Nat)
    (cores : Nat → C) : Res (Nat × (Nat → List P) × (Nat → C) × Bool) :=
  match initPP tol dist rnd U pos points k with
  | .ok cl => recluster core err k 10000 0 cl cores
  | .fail => .fail
  | .ub => .ub

/-- One turn of `_zVecClusterCoreMedoid`, zm_mva_cluster.c:104-107. -/
def medoidStep (f : P → K) (st : P × Option K) (p : P) : P × Option K := if ltInf (f p) st.2 then (p, some (f p)) else st

/-- `_zVecClusterCoreMedoid`, zm_mva_cluster.c:84-92 and 97-110: a core is the value of a point, so that `C` is the type of points here; the root of an empty list holds nothing. -/
def medoid (dist : P → P → K) : List P → Res P
  | [] => .ub
  | t :: l => .ok ((t :: l).foldl (medoidStep fun p => ((t :: l).map fun q => dist q p).sum) (t, none)).1

/-- `zVecMultiClusterKMedoids`, zm_mva_cluster.c:656-661. -/
def zKMedoids (tol : K) (err : P → P → K) (dist : P → P → K) (rnd : Nat → Nat → Nat) (U : Nat → K) (pos : Nat) (points : List P) (k : Nat)
    (cores : Nat → P) : Res (Nat × (Nat → List P) × (Nat → P) × Bool) :=
  zKMeans tol (medoid dist) err dist rnd U pos points k cores

/-! ## X-means -/

/-- `_zVecMultiClusterXMeansTest`, zm_mva_cluster.c:825-835. -/
def xMeansTest (test : List P → List P → List P → Bool) (c c1 c2 : List P) : Bool :=
  if 10 * c1.length < c2.length ∨ 10 * c2.length < c1.length then false else test c c1 c2

/-- `_zVecMultiClusterXMeans`, zm_mva_cluster.c:838-857, with fuel for the recursion.  `km pos l` is K-means with two clusters from the random number `pos`: the cluster at the
tail, that at the head and the next random number.  The result lists the clusters from the tail. -/
def xMeans (km : Nat → List P → Res (List P × List P × Nat)) (test : List P → List P → List P → Bool) : Nat → Nat → List P → Res (List (List P) × Nat)
  | fuel, pos, c =>
    if c.length < 10 then .ok ([c], pos)
    else match fuel with
      | 0 => .ub
      | fuel+1 =>
        match km pos c with
        | .ok (ct, ch, pos) =>
          if xMeansTest test c ch ct = true then .ok ([c], pos)
          else match xMeans km test fuel pos ch with
            | .ok (lh, pos) =>
              match xMeans km test fuel pos ct with
              | .ok (lt, pos) => .ok (lt ++ lh, pos)
              | .fail => .fail
              | .ub => .ub
            | .fail => .fail
            | .ub => .ub
        | .fail => .fail
        | .ub => .ub

/-- `_zVecClusterMaxError`, zm_mva_cluster.c:771-781: `f p` is the norm of the error. -/
def maxError (f : P → K) (l : List P) : K := l.foldl (fun m p => if f p > m then f p else m) 0

/-- `_zVecMultiClusterXMeansCheckDensity`, zm_mva_cluster.c:784-794: `f` gives the norms of the errors from the core of the cluster, and `n` is the dimension. -/
def checkDensity (f : List P → P → K) (n : Nat) (c c1 c2 : List P) : Bool :=
  decide (maxError (f c) c ^ n > maxError (f c1) c1 ^ n + maxError (f c2) c2 ^ n)

/-! ## Silhouettes -/

/-- `_zVecClusterDistAve`, zm_mva_cluster.c:93-96; the mean over no points is undefined. -/
def distAve (dist : P → P → K) (l : List P) (p : P) : Res K :=
  if l = [] then .ub else .ok ((l.map fun q => dist q p).sum / (l.length : K))

/-- Lines 685-689: the least mean distance from the other clusters. -/
def otherStep (dist : P → P → K) (cl : Nat → List P) (a : Nat) (p : P) (b : Nat) (m : Option K) : Res (Option K) :=
  if b = a then .ok m
  else match distAve dist (cl b) p with
    | .ok d => .ok (if ltInf d m then some d else m)
    | .fail => .fail
    | .ub => .ub

/-- The silhouette of a point, zm_mva_cluster.c:683-690; HUGE_VAL and a zero divisor are undefined. -/
def silhouette (dist : P → P → K) (k : Nat) (cl : Nat → List P) (a : Nat) (p : P) : Res K :=
  match distAve dist (cl a) p, forUpM 0 k (otherStep dist cl a p) none with
  | .ok x, .ok (some y) => if max x y = 0 then .ub else .ok ((y - x) / max x y)
  | _, _ => .ub

end Zm.Clus
