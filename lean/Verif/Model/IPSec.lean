import Verif.Model.IP

/-! # Velocity and acceleration of interpolators at a section

The `sec_vel` and `sec_acc` methods of the interpolators, reached by `zIPSecVel` and `zIPSecAcc` (zm_ip.h:89-90), of
`src/zm_ip_lin.c`, `src/zm_ip_lagrange.c`, `src/zm_ip_chebyshev.c`, `src/zm_ip_spline.c` and `src/zm_ip_akima.c`.
One component, as in `Verif.Model.IP`.  The arrays of the knots are accessed without checks (`zArrayElemNC`): reading
the time increment or the value of a knot that does not exist is `ub`. -/

namespace Zm.IP
open Zm Misc

section field
variable {K : Type*} [Field K] [LinearOrder K]

/-- `_zIPSecAccLinear`, zm_ip_lin.c:27-38. -/
def linSecAcc (n : Nat) (va : Nat → K) (i : Nat) : Dbl K :=
  if i ≤ 0 ∨ i + 1 ≥ n then .fin 0
  else if va i > va (i-1) then .inf false
  else if va i < va (i-1) then .inf true
  else .fin 0

/-- `_zIPAccLinear`, zm_ip_lin.c:47-53.  `tol` is `zTOL`. -/
def linAcc (tol : K) (n : Nat) (T va : Nat → K) (t : K) : Dbl K :=
  let i := zIPDataSeg n T t
  if zIsTol (T i - t) tol then linSecAcc n va i else .fin 0

/-- `_zIPSecVelLagrange`, zm_ip_lagrange.c:64-67. -/
def lagSecVel (n : Nat) (T va : Nat → K) (i : Nat) : K := lagVel n T va (T i)
/-- `_zIPSecAccLagrange`, zm_ip_lagrange.c:70-73. -/
def lagSecAcc (n : Nat) (T va : Nat → K) (i : Nat) : K := lagAcc n T va (T i)

/-- `_zIPSecVelChebyshev`, zm_ip_chebyshev.c:90-93. -/
def chebSecVel (n : Nat) (T va : Nat → K) (i : Nat) : K := chebVel n T va (T i)
/-- `_zIPSecAccChebyshev`, zm_ip_chebyshev.c:96-99. -/
def chebSecAcc (n : Nat) (T va : Nat → K) (i : Nat) : K := chebAcc n T va (T i)

/-- `_zIPSecAccPCHIP`, zm_ip_spline.c:240-244. -/
def pchipSecAcc (n : Nat) (dt x va : Nat → K) (i : Nat) : Res K :=
  if i + 1 < n then .ok (x i * -6 + -(dt (i+1)) * 4 * va i) else .ub

/-- The second half of `_zIPSecAccAkima`, zm_ip_akima.c:89-95, from the index `i` it has then and the vector `a1`. -/
def akSecAcc2 (n : Nat) (dt x va : Nat → K) (i : Nat) (a1 : K) : Res K :=
  if i + 1 < n then
    let d := dt (i+1)
    let a2 := x (i+1) - x i
    let a2 := a2 * (-6/(d*d))
    let a2 := a2 + 4/d * va i
    let a2 := a2 + 2/d * va (i+1)
    .ok ((a1 + a2) * (1/2))
  else .ub

/-- `_zIPSecAccAkima`, zm_ip_akima.c:65-101; the work vectors are zero when allocated.  The allocations are assumed to succeed. -/
def akSecAcc (n : Nat) (dt x va : Nat → K) (i : Nat) : Res K :=
  if i ≥ n then .ok 0
  else if i + 1 < n then
    let d := dt (i+1)
    let a1 := x (i+1) - x i
    let a1 := a1 * (6/(d*d))
    let a1 := a1 + -4/d * va i
    let a1 := a1 + -2/d * va (i+1)
    if i = 0 then .ok a1
    else akSecAcc2 n dt x va (i-1) a1
  else akSecAcc2 n dt x va i 0

end field
end Zm.IP
