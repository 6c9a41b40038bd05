import Verif.Base.Res
import Verif.Base.Fn
import Verif.Model.LE

/-!
# Clusters of linear sums (zm_mva_cluster.c:125-197)

A sample of `n` numbers stands for the equation that the last number is a linear sum of the others and a constant; the core of a cluster holds the coefficients, the constant last.
All samples and the core have the same size `n > 0`.  The functions write a one over the last number of every sample while they use it: the samples are part of the state.
`zMatAddDyadNC`, `zVecCatNCDRC`, `zVecMulNC` and `zVecInnerProd` are written out (their models are in `Model/MatMore.lean` and `Model/RawVec.lean`).
-/

namespace Zm.ClusterLS
open Zm

section
variable {K : Type*} [Field K] [LinearOrder K]

/-- `zVecInnerProd` of vectors of the same size. -/
def inner (n : Nat) (a b : Nat → K) : K := forUp 0 n (fun i s => s + a i * b i) 0

/-- `zVecClusterErrorLS`, zm_mva_cluster.c:126-136: the error and what is then in the sample. -/
def errorLS (n : Nat) (p core : Nat → K) : K × (Nat → K) :=
  let xm := p (n-1)
  let p := set1 p (n-1) 1
  let e := inner n core p - xm
  (e, set1 p (n-1) xm)

/-- What `zVecClusterCoreLS` and `zVecClusterLoadedMeanLS` accumulate: matrix, vector, the samples used so far (the last first). -/
structure Acc (K : Type*) where
  c : Nat → Nat → K
  b : Nat → K
  done : List (Nat → K)

/-- One sample, zm_mva_cluster.c:152-157 and 183-189; `load` is one in the former. -/
def addSample (n : Nat) (load : K) (p : Nat → K) (s : Acc K) : Acc K :=
  let xm := p (n-1)
  let p := set1 p (n-1) 1
  let g : Nat → K := fun i => load * p i
  { c := fun i j => s.c i j + g i * p j, b := fun i => s.b i + load * xm * p i, done := set1 p (n-1) xm :: s.done }

/-- `zVecClusterCoreLS`, zm_mva_cluster.c:139-163, of at least one sample: the core and the samples afterwards.  What `zLESolveGauss` returns is not looked at. -/
def coreLS (tol : K) (n : Nat) (pl : List (Nat → K)) (core : Nat → K) : Res ((Nat → K) × List (Nat → K)) :=
  if pl.isEmpty then .ub else
  let s := pl.foldl (fun s p => addSample n 1 p s) ⟨fun _ _ => 0, fun _ => 0, []⟩
  match LE.zLESolveGauss tol n s.c s.b core with
  | .ok x => .ok (x, s.done.reverse)
  | .fail => .ok (core, s.done.reverse)
  | .ub => .ub

/-- `zVecClusterLoadedMeanLS`, zm_mva_cluster.c:166-197, with the loads of the samples. -/
def loadedMeanLS (tol : K) (n : Nat) (pl : List (K × (Nat → K))) (mean : Nat → K) : Res ((Nat → K) × List (Nat → K)) :=
  if pl.isEmpty then .ub else
  let s := pl.foldl (fun s p => addSample n p.1 p.2 s) ⟨fun _ _ => 0, fun _ => 0, []⟩
  match LE.zLESolveGauss tol n s.c s.b mean with
  | .ok x => .ok (x, s.done.reverse)
  | .fail => .ok (mean, s.done.reverse)
  | .ub => .ub

end
end Zm.ClusterLS
