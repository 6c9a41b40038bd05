import Verif.Model.Stat
import Verif.Base.Res

/-! # Mean together with variance and covariance, standard deviation

Models of the wrappers of `src/zm_mva.c` and `src/zm_stat.c` that compose the functions of `Model/Stat.lean`.
The vectors of a list and the results have one common size `n` (simplification: the checks of sizes are not modelled here).
-/

namespace Zm.Stat
open Zm

section
variable {K : Type*} [Field K] [LinearOrder K]

/-- `zVecListMeanVar`, zm_mva.c:68-72: the mean and the variance about it.  `zVecListVar` reads the vector at the head of the list (zm_mva.c:58), which
an empty list does not have: undefined. -/
def zVecListMeanVar (tol : K) (n : Nat) (l : List (Nat → K)) : Res ((Nat → K) × K) :=
  let mean := (zVecListMean tol n l).1
  match l with
  | [] => .ub
  | _ :: _ => .ok (mean, zVecListVar n l mean)

/-- `zVecListMeanCov`, zm_mva.c:104-108: the mean and the covariance matrix about it; `zVecListCov` reads the head of the list too (zm_mva.c:81).
The result is null (`fail`) when `zMatDivDRC` refuses the divisor. -/
def zVecListMeanCov (tol : K) (n : Nat) (l : List (Nat → K)) : Res ((Nat → K) × (Nat → Nat → K)) :=
  let mean := (zVecListMean tol n l).1
  match l with
  | [] => .ub
  | _ :: _ =>
    let c := zVecListCov tol n l mean
    if c.2 then .ok (mean, c.1) else .fail

/-- `zDataStandardDeviation`, zm_stat.c:194-197. -/
def zDataStandardDeviation (sqrt : K → K) (data : Nat → K) (size : Nat) : K := sqrt (zDataVar data size)

end
end Zm.Stat
