import Verif.Model.Stat
import Verif.Model.LEMore

/-!
# Multivariate analysis
Principal components and vectors from a normal distribution, `src/zm_mva.c`.  Vectors are functions, all of the size `n` the functions require;
allocation succeeds.  The mean and the covariance are those of `Model/Stat.lean`.
-/

namespace Zm.Mva
open Zm Misc
variable {K : Type*} [Field K] [LinearOrder K] [IsStrictOrderedRing K]

/-- The loop over the contribution ratio, zm_mva.c:130-133, from the component `n` on; `k` components are left. -/
def pcaLoop (score : Nat → K) (th : K) : Nat → Nat → K → Nat
  | 0, n, _ => n
  | k+1, n, sum => if sum + score n > th then n else pcaLoop score th k (n+1) (sum + score n)

/-- `zVecListPCA`, zm_mva.c:111-138, with the eigensolver `eig` (the library calls `zMatSymEigJacobi`): mean, scores, loading and the returned number.
For an empty list the head is read before it is tested. -/
def zVecListPCA (tol : K) (eig : (Nat → Nat → K) → Res ((Nat → K) × (Nat → Nat → K) × Bool)) (n : Nat) (l : List (Nat → K)) (cr : K) :
    Res ((Nat → K) × (Nat → K) × (Nat → Nat → K) × Nat) :=
  if l = [] then .ub else
  let mean := (Stat.zVecListMean tol n l).1
  (eig (Stat.zVecListCov tol n l mean).1).bind fun r =>
  let th := cr * forUp 0 n (fun i x => x + r.1 i) 0
  .ok (mean, r.1, r.2.1, pcaLoop r.1 th n 0 0)

/-- One vector of `zVecListGenRandND`, zm_mva.c:164-167: `z` are the numbers drawn. -/
def genVec (n cols : Nat) (b : Nat → Nat → K) (mean z : Nat → K) : Nat → K :=
  LE.addTo n (LE.mulVec n cols b z (fun _ => 0)) mean

/-- `zVecListGenRandND`, zm_mva.c:141-176, `Z i` being the numbers drawn for the vector `i`: the list and the number returned.  `zMatDecompCholeskyAlloc`
returns the rank, or -1 with a factor that is zero (and not resized) when the matrix is found not to be positive semidefinite; the test at line 158
takes the rank zero for a failure, in which case the list is not touched (`none`), and lets -1 pass. -/
def zVecListGenRandND (tol : K) (sqrt : K → K) (n cnt : Nat) (mean : Nat → K) (cov : Nat → Nat → K) (Z : Nat → Nat → K) : Res (Option (List (Nat → K)) × Nat) :=
  match LE.zMatDecompCholesky tol sqrt n cov with
  | .ok (b, _, rank) =>
    if rank = 0 then .ok (none, 0)
    else .ok (some (forUp 0 cnt (fun i l => genVec n rank b mean (Z i) :: l) []), cnt)
  | .fail => .ok (some (forUp 0 cnt (fun i l => genVec n n (fun _ _ => 0) mean (Z i) :: l) []), cnt)
  | .ub => .ub

end Zm.Mva
