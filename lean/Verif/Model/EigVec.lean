import Verif.Model.SingVal
import Mathlib.Analysis.Complex.Basic

/-!
# Eigenvectors by inverse iteration (zm_mat_eig.c:246-360 and 440-475)

`tol` is the tolerance `zTOL` of the power method, `itol` that of the elimination in `zMatInv`.  The initial vectors are random:
they are parameters.  Allocation succeeds.  The loops `while( !zMatInv( ms, b ) )` end at once: `zMatInv` of a square matrix into a
matrix of the same size always returns its result, also where the elimination failed (see Model/LE.lean).
-/

namespace Zm.Eig
open Zm Misc LE

section
variable {K : Type*} [Field K] [LinearOrder K]

/-- `zMatShift`, zm_mat.c: a number is added to the diagonal. -/
def shiftMat (m : Nat → Nat → K) (s : K) : Nat → Nat → K := fun i j => if i = j then m i j + s else m i j

/-- The inverse iteration, zm_mat_eig.c:265-268 and 459-463: what `zMatEigPower` leaves (eigenvalue of the inverse, vector, and, not
seen by the caller, the normalised vector and whether the iteration converged). -/
def inverseIter (sqrt : K → K) (tol itol : K) (n : Nat) (ms : Nat → Nat → K) (iter : Int) (x0 : Nat → K) : Res (K × (Nat → K) × (Nat → K) × Bool) :=
  (zMatInv itol n ms).bind fun b => .ok (zMatEigPower sqrt tol n (unfin n b) iter x0)

/-- `_zMatEigVecReal`, zm_mat_eig.c:246-276, with `shift` = ten times zTOL. -/
def eigVecReal (sqrt : K → K) (tol itol shift : K) (n : Nat) (m : Nat → Nat → K) (eigval : K) (iter : Int) (x0 : Nat → K) : Res (K × (Nat → K) × (Nat → K) × Bool) :=
  inverseIter sqrt tol itol n (shiftMat m (-eigval - shift)) iter x0

/-- `_zMatSymEigBisecR`, zm_mat_eig.c:440-475: the columns of the base.  The shift stays the same, since `zMatInv` returns a result always. -/
def symEigBisecR (sqrt : K → K) (tol itol shift : K) (n : Nat) (m : Nat → Nat → K) (eigval : Nat → K) (iter : Int) (x0 : Nat → Nat → K) (base : Nat → Nat → K) :
    Res (Nat → Nat → K) :=
  forUpM 0 n (fun i base =>
    (inverseIter sqrt tol itol n (shiftMat m (-eigval i - shift)) iter (x0 i)).bind fun p =>
    .ok fun r c => if c = i then p.2.1 r else base r c) base

/-- The matrix of twice the size in `_zMatEigVecComplex`, zm_mat_eig.c:295-303. -/
def cplxMat (n : Nat) (m : Nat → Nat → K) (re im shift : K) : Nat → Nat → K := fun i j =>
  if i < n then
    if j < n then (if i = j then m i j - (re + shift) else m i j) else (if j = i + n then im else 0)
  else
    if j < n then (if i = j + n then -im else 0) else (if i = j then m (i - n) (j - n) - (re + shift) else m (i - n) (j - n))

end

/-- `zCVecNormalizeDRC`, zm_cvec.c:418-430: a vector with a tiny norm is left as it is. -/
noncomputable def cnormalize (tol : ℝ) (n : Nat) (u : Nat → ℂ) : Nat → ℂ :=
  let r := Real.sqrt (∑ i ∈ Finset.range n, Complex.normSq (u i))
  if |r| ≤ tol then u else fun i => u i / r

/-- `_zMatEigVecComplex`, zm_mat_eig.c:279-321: the two vectors; `p` is what the power method leaves. -/
noncomputable def eigVecComplex (tol itol shift : ℝ) (n : Nat) (m : Nat → Nat → ℝ) (eigval : ℂ) (iter : Int) (x0 : Nat → ℝ) :
    Res ((Nat → ℂ) × (Nat → ℂ)) :=
  (inverseIter Real.sqrt tol itol (2 * n) (cplxMat n m eigval.re eigval.im shift) iter x0).bind fun p =>
  .ok (cnormalize tol n fun i => ⟨p.2.1 i, p.2.1 (i + n)⟩, cnormalize tol n fun i => ⟨p.2.1 i, -p.2.1 (i + n)⟩)

/-- `zCMatPutCol`, zm_cmat.c: a column outside is refused. -/
def putCol (n i : Nat) (u : Nat → ℂ) (base : Nat → Nat → ℂ) : Nat → Nat → ℂ := if i < n then fun r c => if c = i then u r else base r c else base

/-- The loop over the eigenvalues in `zMatEig`, zm_mat_eig.c:338-352, from the index `i` on, with the eigenvalues that `zMatEigDQR` found.
`x0` gives the random vector for the eigenvalue of an index.  `fuel` only makes the recursion structural: the index grows. -/
noncomputable def eigCols (tol itol shift : ℝ) (n : Nat) (m : Nat → Nat → ℝ) (eigval : Nat → ℂ) (iter : Int) (x0 : Nat → Nat → ℝ) :
    Nat → Nat → (Nat → Nat → ℂ) → Res (Nat → Nat → ℂ)
  | 0, i, base => if i < n then .ub else .ok base
  | fuel+1, i, base =>
    if i < n then
      if |(eigval i).im| ≤ tol then
        (eigVecReal Real.sqrt tol itol shift n m (eigval i).re iter (x0 i)).bind fun p =>
        eigCols tol itol shift n m eigval iter x0 fuel (i+1) (putCol n i (fun r => (p.2.1 r : ℂ)) base)
      else
        (eigVecComplex tol itol shift n m (eigval i) iter (x0 i)).bind fun u =>
        eigCols tol itol shift n m eigval iter x0 fuel (i+2) (putCol n (i+1) u.2 (putCol n i u.1 base))
    else .ok base

/-- `zMatEig`, zm_mat_eig.c:326-360, behind `zMatEigDQR`. -/
noncomputable def zMatEigBase (tol itol shift : ℝ) (n : Nat) (m : Nat → Nat → ℝ) (eigval : Nat → ℂ) (x0 : Nat → Nat → ℝ) (base : Nat → Nat → ℂ) : Res (Nat → Nat → ℂ) :=
  eigCols tol itol shift n m eigval 10 x0 n 0 base

end Zm.Eig
