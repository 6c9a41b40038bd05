import Verif.Model.Eig

/-!
# Eigenvalues of symmetric matrices by bisection (zm_mat_eig.c:375-437 and 472-490)

The matrix is the tridiagonal one that `zMatSymEigBisec` leaves in its work space.  `_zMatSymEigBisecRange` reads one number
behind the matrix (see `bisecRange` in `Model/Eig.lean`); here the absolute value of what it finds there is a parameter `g`,
so that the rest of the function can be judged.  `tol` is the tolerance `zTOL`.
-/

namespace Zm.Eig
open Zm
variable {K : Type*} [Field K] [LinearOrder K]

/-- One row of `_zMatSymEigBisecRange`, zm_mat_eig.c:383-386, on the lower end, the upper end and the last neighbour. -/
def rangeStep (g : K) (n : Nat) (a : Nat → Nat → K) (i : Nat) (t : K × K × K) : K × K × K :=
  let mr := if i + 1 < n then |a i (i+1)| else g
  (if a i i - (t.2.2 + mr) < t.1 then a i i - (t.2.2 + mr) else t.1, if a i i + (t.2.2 + mr) > t.2.1 then a i i + (t.2.2 + mr) else t.2.1, mr)

/-- `_zMatSymEigBisecRange`, zm_mat_eig.c:376-388: the ends of the range. -/
def bisecEnds (g : K) (n : Nat) (a : Nat → Nat → K) : K × K :=
  let t := forUp 0 n (rangeStep g n a) (0, 0, 0)
  (t.1, t.2.1)

/-- One row of `_zMatSymEigBisecSturm`, zm_mat_eig.c:399-403, on the count and the last term of the series. -/
def sturmStep (tol e : K) (a : Nat → Nat → K) (i : Nat) (t : Nat × K) : Nat × K :=
  let r := a i (i-1)
  let p2 := e - a i i - r * r / (if t.2 = 0 then tol else t.2)
  (if p2 < 0 then t.1 + 1 else t.1, p2)

/-- `_zMatSymEigBisecSturm`, zm_mat_eig.c:391-406, for a matrix that has a row. -/
def sturm (tol : K) (n : Nat) (a : Nat → Nat → K) (e : K) : Nat :=
  (forUp 1 n (sturmStep tol e a) (if e - a 0 0 ≤ 0 then 1 else 0, e - a 0 0)).1

/-- `_zMatSymEigBisecOne`, zm_mat_eig.c:409-423.  The loop ends when rounding stops the width from shrinking, which never
happens to exact numbers: `k` is the number of passes after which it ends. -/
def bisecOne (tol : K) (n : Nat) (a : Nat → Nat → K) (nmin : Nat) : Nat → K → K → K
  | 0, emin, emax => emin + 1/2 * (emax - emin)
  | k+1, emin, emax =>
    let e := emin + 1/2 * (emax - emin)
    if sturm tol n a e = nmin then bisecOne tol n a nmin k e emax else bisecOne tol n a nmin k emin e

/-- `*eig = e`, zm_mat_eig.c:422, in the buffer of `eigval`, which has `n` numbers. -/
def putEig (n : Nat) (eig : Nat → K) (off : Int) (e : K) : Res (Nat → K) :=
  if 0 ≤ off ∧ off < n then .ok (set1 eig off.toNat e) else .ub

/-- `_zMatSymEigBisecRec`, zm_mat_eig.c:426-439, with the offset of the pointer `eig` in the buffer; `k` is the number of
passes of `_zMatSymEigBisecOne`.  `fuel` bounds the depth of the recursion; running out of it is undefined (the stack). -/
def bisecRec (tol : K) (n : Nat) (a : Nat → Nat → K) (k : Nat) : Nat → K → Nat → K → Nat → Int → (Nat → K) → Res (Nat → K)
  | 0, _, _, _, _, _, _ => .ub
  | fuel+1, emin, nmin, emax, nmax, off, eig =>
    if nmin = nmax + 1 then putEig n eig off (bisecOne tol n a nmin k emin emax) else
    let e := 1/2 * (emax + emin)
    let m := sturm tol n a e
    (if m > nmax then bisecRec tol n a k fuel e m emax nmax off eig else .ok eig).bind fun eig =>
    if m < nmin then bisecRec tol n a k fuel emin nmin e m (off + m - nmax) eig else .ok eig

/-- The eigenvalues of `zMatSymEigBisec`, zm_mat_eig.c:483-486, from the tridiagonal matrix. -/
def bisecVals (g tol : K) (n : Nat) (a : Nat → Nat → K) (k fuel : Nat) (eig : Nat → K) : Res (Nat → K) :=
  let r := bisecEnds g n a
  bisecRec tol n a k fuel r.1 (sturm tol n a r.1) r.2 (sturm tol n a r.2) 0 eig

end Zm.Eig
