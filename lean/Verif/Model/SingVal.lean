import Verif.Model.Eig
import Verif.Model.LEMore

/-!
# Extreme singular values and the condition number (zm_mat_eig.c:223-243 and 631-695)

`tol` is the tolerance `zTOL` of the power method and of the condition number, `itol` that of the elimination in `zMatInv`.
The initial vectors of the power method are random: they are parameters.  Allocation succeeds.
-/

namespace Zm.Eig
open Zm Misc LE
variable {K : Type*} [Field K] [LinearOrder K]

/-- `zMatEigPowerInv`, zm_mat_eig.c:224-243, of a square matrix.  The reciprocal of zero is infinite. -/
def zMatEigPowerInv (sqrt : K → K) (tol itol : K) (n : Nat) (m : Nat → Nat → K) (iter : Int) (x0 : Nat → K) : Res (Dbl K) :=
  (zMatInv itol n m).bind fun im =>
  let v := (zMatEigPower sqrt tol n (unfin n im) iter x0).1
  .ok (if v = 0 then .inf false else .fin (1 / v))

/-- The number of rows of the product in `_zMatSingularValueMat`, zm_mat_eig.c:634-651. -/
def svSize (rows cols : Nat) : Nat := if rows > cols then cols else rows

/-- The product that `_zMatSingularValueMat` makes, zm_mat_eig.c:641 and 649. -/
def svMat (rows cols : Nat) (m : Nat → Nat → K) : Nat → Nat → K :=
  if rows > cols then mulMatSelfT cols rows (fun i j => m j i) else mulMatSelfT rows cols m

/-- `sqrt` of a double. -/
def dsqrt (sqrt : K → K) : Dbl K → Dbl K
  | .fin x => if x < 0 then .nan else .fin (sqrt x)
  | .inf neg => if neg then .nan else .inf false
  | .nan => .nan

/-- `zMatSingularValueMax`, zm_mat_eig.c:657-668. -/
def zMatSingularValueMax (sqrt : K → K) (tol : K) (rows cols : Nat) (m : Nat → Nat → K) (x0 : Nat → K) : Dbl K :=
  dsqrt sqrt (.fin (zMatEigPower sqrt tol (svSize rows cols) (svMat rows cols m) 0 x0).1)

/-- `zMatSingularValueMin`, zm_mat_eig.c:671-682. -/
def zMatSingularValueMin (sqrt : K → K) (tol itol : K) (rows cols : Nat) (m : Nat → Nat → K) (x0 : Nat → K) : Res (Dbl K) :=
  (zMatEigPowerInv sqrt tol itol (svSize rows cols) (svMat rows cols m) 0 x0).bind fun v => .ok (dsqrt sqrt v)

/-- The quotient of zm_mat_eig.c:695: a comparison with a NaN is false, a number divided by infinity is zero. -/
def condQuot (tol : K) : Dbl K → Dbl K → Dbl K
  | .fin a, .fin b => if b > tol then .fin (a / b) else .inf false
  | .fin _, .inf false => .fin 0
  | _, .inf false => .nan
  | .inf s, .fin b => if b > tol then .inf s else .inf false
  | .nan, .fin b => if b > tol then .nan else .inf false
  | _, _ => .inf false

/-- `zMatCondNum`, zm_mat_eig.c:685-697, with the initial vectors of the two runs of the power method. -/
def zMatCondNum (sqrt : K → K) (tol itol : K) (rows cols : Nat) (m : Nat → Nat → K) (x0 x1 : Nat → K) : Res (Dbl K) :=
  (zMatSingularValueMin sqrt tol itol rows cols m x1).bind fun smin => .ok (condQuot tol (zMatSingularValueMax sqrt tol rows cols m x0) smin)

end Zm.Eig
