import Verif.Model.Cluster
import Verif.Model.RANSAC
import Verif.Model.Misc
import Mathlib.Analysis.SpecialFunctions.Log.Basic
import Mathlib.Algebra.Order.Floor.Ring

/-!
# Tests of clusters, automatic parameters of RANSAC

More of `src/zm_mva_cluster.c` (evenness, variances, the test of X-means by the Bayesian information criterion) and of
`src/zm_mva_ransac.c` (the automatic choice of parameters).  The functions of errors are arbitrary: `e p` is the squared norm of the error of
the sample `p` from the core of a cluster.
-/

namespace Zm.Cluster

variable {P : Type*}

/-- `zVecMultiClusterEvenness`, zm_mva_cluster.c:376-388, from the sizes of the clusters (`intMax` is `INT_MAX`). -/
def evenness {K : Type*} [Field K] (intMax : Nat) (sizes : List Nat) : Misc.Dbl K :=
  let mn := sizes.foldl (fun m s => if s < m then s else m) intMax
  let mx := sizes.foldl (fun m s => if s > m then s else m) 0
  if mn = 0 then (if mx = 0 then .nan else .inf false) else .fin ((mx : K) / (mn : K))

/-- `_zVecMultiClusterVar`, zm_mva_cluster.c:470-480; without samples zero is divided by zero (`none`). -/
noncomputable def clusterVar (e : P → ℝ) (l : List P) : Option ℝ :=
  if l.length = 0 then none else some (l.foldl (fun s p => s + e p) 0 / l.length)

/-- `_zVecClusterXMeansPDF`, zm_mva_cluster.c:797-801; not a number (`none`) for a variance of zero. -/
noncomputable def xPDF (var : ℝ) (e : P → ℝ) (p : P) : Option ℝ :=
  if var = 0 then none else some (Real.exp (-0.5 * e p / var) / √var)

/-- One summand of the logarithms, zm_mva_cluster.c:812-813 and 816-817. -/
noncomputable def bicTerm (var1 var2 : ℝ) (e1 e2 : P → ℝ) (ls : Option ℝ) (p : P) : Option ℝ :=
  match ls, xPDF var1 e1 p, xPDF var2 e2 p with
  | some s, some a, some b => some (s + Real.log (a + b))
  | _, _, _ => none

/-- The last lines of `_zVecMultiClusterXMeansCheckBIC`, zm_mva_cluster.c:819-821: a comparison with what is not a number is false, and the logarithm of zero
is less than every number. -/
noncomputable def bicCompare (n coreSize : Nat) (var : ℝ) : Option ℝ → Bool
  | none => false
  | some ls => if var = 0 then true else
    decide ((n : ℝ) * (Real.log var + 1) < 2 * ((n : ℝ) * Real.log 2 - ls) + (coreSize : ℝ) * Real.log n)

/-- `_zVecMultiClusterXMeansCheckBIC`, zm_mva_cluster.c:804-822, for clusters with samples; the result is true if the samples had better be kept
together. -/
noncomputable def checkBIC (coreSize : Nat) (var var1 var2 : ℝ) (e1 e2 : P → ℝ) (c c1 c2 : List P) : Bool :=
  let ls := c1.foldl (bicTerm var1 var2 e1 e2) (some 0)
  let ls := c2.foldl (bicTerm var1 var2 e1 e2) ls
  bicCompare c.length coreSize var ls

end Zm.Cluster

namespace Zm.RANSAC

variable {K P Q : Type*} [Field K] [LinearOrder K]

/-- A number converted to an integer, towards zero. -/
def trunc [FloorRing K] (x : K) : Int := if 0 ≤ x then ⌊x⌋ else ⌈x⌉

/-- `_zRANSACAutoSelectionNumber`, zm_mva_ransac.c:94-103, for parameters of the dimension `dim` and `n` samples. -/
def autoNumber [FloorRing K] (dim n : Nat) (rate : K) : Int := trunc (min ((dim : K) * 5) ((n : K) * (1 - rate) * (1/2)))

/-- `zRANSACAuto`, zm_mva_ransac.c:106-113. -/
def zRANSACAuto [FloorRing K] (rnd : Nat → Nat → Nat) (fit : Q → List P → Q) (err : Q → P → K) (z : Q) (dim : Nat) (rate nl : K) (q : Q) (sample : List P) :
    Res (Q × List P) :=
  let ns := autoNumber dim sample.length rate
  zRANSAC rnd fit err z ns (ns * 3) (1/10 * nl) q sample

/-- `zRANSACSaveInlierAuto`, zm_mva_ransac.c:116-123. -/
def zRANSACSaveInlierAuto [FloorRing K] (rnd : Nat → Nat → Nat) (fit : Q → List P → Q) (err : Q → P → K) (z : Q) (dim : Nat) (rate nl : K) (q : Q)
    (sample : List P) : Res (Q × List P × List P) :=
  let ns := autoNumber dim sample.length rate
  zRANSACSaveInlier rnd fit err z ns (ns * 3) (1/10 * nl) q sample

end Zm.RANSAC
