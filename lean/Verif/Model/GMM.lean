import Verif.Model.LE
import Verif.Model.Stat
import Mathlib.Analysis.SpecialFunctions.Log.Basic
import Mathlib.Analysis.SpecialFunctions.Trigonometric.Basic

/-!
# Model of the Gaussian mixtures: zm_mva_gmm.c

`double` is ℝ; `zTOL` is the parameter `tol`.  The methods for clustering are the default ones.  A point is a function of the component; the points of
the list are numbered in the order in which `zListForEach` meets them, and so are the Gaussians, so that the loops below run upwards.  Vectors and
matrices have `d` components, and the loops on components are taken together.  Allocations succeed and there is at least one point.
The clusters of K-means (C68) are a parameter, one for each Gaussian.
-/

namespace Zm.GMM
open Zm LE

/-- `zGMMUnit`, zm_mva_gmm.h:19-28. -/
structure GUnit where
  core : Nat → ℝ
  cov : Nat → Nat → ℝ
  weight : ℝ
  inv : Nat → Nat → ℝ
  det : ℝ

/-- `_zVecClusterErrorDefault`, zm_mva_cluster.c:66-69. -/
def err (p core : Nat → ℝ) : Nat → ℝ := fun c => p c - core c

/-- `zMatAddDyadNC`. -/
def addDyad (m : Nat → Nat → ℝ) (u v : Nat → ℝ) : Nat → Nat → ℝ := fun a b => m a b + u a * v b

/-- `zVecDivDRC`, zm_vec.c:418-426: a tiny divisor is refused and the vector left as it is. -/
noncomputable def vecDiv (tol : ℝ) (v : Nat → ℝ) (k : ℝ) : Nat → ℝ := if |k| ≤ tol then v else fun c => v c / k

/-- `zMatDivDRC`, zm_mat.c:593-604: a tiny divisor is refused and the matrix left as it is. -/
noncomputable def matDiv (tol : ℝ) (m : Nat → Nat → ℝ) (k : ℝ) : Nat → Nat → ℝ := if |k| ≤ tol then m else fun a b => m a b / k

/-- `zMatInv` (see Model/LE.lean).  The reciprocal of a scalar zero, an infinity in C, is rendered as zero: it is not used, since a density with a tiny
determinant is not computed from the inverse. -/
noncomputable def matInv (tol : ℝ) (d : Nat) (m : Nat → Nat → ℝ) : Nat → Nat → ℝ :=
  match zMatInv tol d m with
  | .ok x => fun i j => if h : j < d then x i ⟨j, h⟩ else 0
  | _ => fun _ _ => 0

/-- `zMulMatVec` and `zVecInnerProd` in `_zGMMUnitPDF`, zm_mva_gmm.c:84-86: e' P e. -/
def quad (d : Nat) (P : Nat → Nat → ℝ) (e : Nat → ℝ) : ℝ :=
  forUp 0 d (fun a s => s + e a * forUp 0 d (fun b t => t + P a b * e b) 0) 0

/-- `_zGMMUnitPDF`, zm_mva_gmm.c:81-88.  The square root of a negative determinant, a NaN in C, does not occur (`maximizeUnit_det_nonneg`,
`estim_spec`). -/
noncomputable def pdf (tol : ℝ) (d : Nat) (u : GUnit) (p : Nat → ℝ) : ℝ :=
  if |u.det| ≤ tol then 1
  else Real.exp (-(1/2) * quad d u.inv (err p u.core)) / Real.sqrt ((2 * Real.pi) ^ d * u.det)

/-- `_zGMMUnitEstim`, zm_mva_gmm.c:63-78, and the weight, 316: the Gaussian of a cluster.  The division by the size of an empty cluster (a NaN in C) is
undefined here. -/
noncomputable def estim (tol : ℝ) (d : Nat) (w : ℝ) (points : List (Nat → ℝ)) : Res GUnit :=
  if points = [] then .ub
  else
    let core := (Stat.zVecListMean tol d points).1
    let sum := points.reverse.foldl (fun m p => addDyad m (err p core) (err p core)) (fun _ _ => 0)
    let cov : Nat → Nat → ℝ := fun a b => sum a b / points.length
    let det := zMatDet tol d cov
    .ok ⟨core, cov, w, if |det| ≤ tol then fun _ _ => 0 else matInv tol d cov, det⟩

/-- `_zVecClusterLoadedMeanDefault`, zm_mva_cluster.c:113-124. -/
noncomputable def loadedMean (tol : ℝ) (n : Nat) (x : Nat → Nat → ℝ) (load : Nat → ℝ) (nk : ℝ) : Nat → ℝ :=
  vecDiv tol (forUp 0 n (fun i m c => m c + load i * x i c) fun _ => 0) nk

/-- The covariance in `_zGMMUnitLoadedCov`, zm_mva_gmm.c:96-103. -/
noncomputable def loadedCov (tol : ℝ) (n : Nat) (x : Nat → Nat → ℝ) (load : Nat → ℝ) (nk : ℝ) (core : Nat → ℝ) : Nat → Nat → ℝ :=
  matDiv tol (forUp 0 n (fun i m => addDyad m (fun c => err (x i) core c * load i) (err (x i) core)) fun _ _ => 0) nk

/-- The body of the loop of `_zGMMCreateEMMaximize`, zm_mva_gmm.c:280-282, with `_zGMMUnitLoadedCov`, 91-107. -/
noncomputable def maximizeUnit (tol : ℝ) (d n : Nat) (x : Nat → Nat → ℝ) (load : Nat → ℝ) (nk : ℝ) : GUnit :=
  let core := loadedMean tol n x load nk
  let cov := loadedCov tol n x load nk core
  ⟨core, cov, nk / n, matInv tol d cov, zMatDet tol d cov⟩

/-- `load_det`, zm_mva_gmm.c:231-242: the density of the mixture of `k` Gaussians at a point. -/
noncomputable def loadDet (tol : ℝ) (d k : Nat) (U : Nat → GUnit) (p : Nat → ℝ) : ℝ :=
  forUp 0 k (fun j s => s + (U j).weight * pdf tol d (U j) p) 0

/-- `gamma`, zm_mva_gmm.c:248 (`load_det` is positive: `loadDet_pos`). -/
noncomputable def gamma (tol : ℝ) (d k : Nat) (U : Nat → GUnit) (p : Nat → ℝ) (j : Nat) : ℝ :=
  (U j).weight * pdf tol d (U j) p / loadDet tol d k U p

/-- `nk`, zm_mva_gmm.c:243-255 (`eps` is not used). -/
noncomputable def nks (tol : ℝ) (d k n : Nat) (x : Nat → Nat → ℝ) (U : Nat → GUnit) : Nat → ℝ :=
  forUp 0 n (fun i nk => forUp 0 k (fun j nk => set1 nk j (nk j + gamma tol d k U (x i) j)) nk) fun _ => 0

/-- `l` of `_zGMMLogLikelihood`, zm_mva_gmm.c:262-266. -/
noncomputable def logLik (tol : ℝ) (d k n : Nat) (x : Nat → Nat → ℝ) (U : Nat → GUnit) : ℝ :=
  forUp 0 n (fun i l => l + Real.log (loadDet tol d k U (x i))) 0

/-- `_zGMMCreateEMExpect` and `_zGMMCreateEMMaximize`, zm_mva_gmm.c:224-257, 273-285: one turn. -/
noncomputable def emStep (tol : ℝ) (d k n : Nat) (x : Nat → Nat → ℝ) (U : Nat → GUnit) : Nat → GUnit :=
  fun j => if j < k then maximizeUnit tol d n x (fun i => gamma tol d k U (x i) j) (nks tol d k n x U j) else U j

/-- `zGMM`, zm_mva_gmm.h:47-51: the Gaussians and `log_likelihood`, `none` for -HUGE_VAL. -/
structure State where
  units : Nat → GUnit
  ll : Option ℝ

/-- The test of `_zGMMLogLikelihood`, zm_mva_gmm.c:267. -/
noncomputable def settled (tol : ℝ) (ll : Option ℝ) (l : ℝ) : Bool :=
  match ll with
  | none => false
  | some l' => decide (|l' - l| ≤ tol)

/-- The iteration of `zGMMCreateEM`, zm_mva_gmm.c:322-328: the state, and whether the likelihood has settled. -/
noncomputable def emLoop (tol : ℝ) (d k n : Nat) (x : Nat → Nat → ℝ) : Nat → State → State × Bool
  | 0, st => (st, false)
  | t + 1, st =>
    if settled tol st.ll (logLik tol d k n x st.units) then (st, true)
    else emLoop tol d k n x t ⟨emStep tol d k n x st.units, some (logLik tol d k n x st.units)⟩

/-- The Gaussians of the clusters, zm_mva_gmm.c:313-318, from the `j`-th on. -/
noncomputable def estimAll (tol : ℝ) (d : Nat) (w : ℝ) : List (List (Nat → ℝ)) → Nat → (Nat → GUnit) → Res (Nat → GUnit)
  | [], _, U => .ok U
  | c :: cs, j, U => (estim tol d w c).bind fun u => estimAll tol d w cs (j + 1) (set1 U j u)

/-- `zGMMCreateEM`, zm_mva_gmm.c:288-335, after K-means: ZITERINIT gives 10000 turns. -/
noncomputable def zGMMCreateEM (tol : ℝ) (d n : Nat) (x : Nat → Nat → ℝ) (clusters : List (List (Nat → ℝ))) (st : State) : Res (State × Bool) :=
  (estimAll tol d (1 / clusters.length) clusters 0 st.units).bind fun U => .ok (emLoop tol d clusters.length n x 10000 ⟨U, st.ll⟩)

/-- `zGMMAIC`, zm_mva_gmm.c:338-341. -/
def zGMMAIC (size k : Nat) (ll : ℝ) : ℝ := 2 * ((size * k : ℕ) - ll)

/-- `zGMMBIC`, zm_mva_gmm.c:344-347. -/
noncomputable def zGMMBIC (size k n : Nat) (ll : ℝ) : ℝ := (size * k : ℕ) * Real.log n - 2 * ll

end Zm.GMM
