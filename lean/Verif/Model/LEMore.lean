import Verif.Model.LEGen
import Verif.Model.Eig

/-!
# More of the linear-equation modules
Cholesky decomposition (`src/zm_le_lu.c`), residual iteration and the Gauss–Seidel method (`src/zm_le.c`), the Lyapunov
equation (`src/zm_le_lyapnov.c`), inverse matrices (`src/zm_le_mat_inv.c`, `src/zm_le_mat_mpinv.c`) and the generalised
solver by singular values (`src/zm_le_gen.c`).

Matrices are functions as in `Model/LE.lean`; sizes agree unless a size test is modelled, and allocation succeeds except
that a matrix without rows or columns cannot be allocated (zm_mat.c:40-44; `zArray2Alloc` of ZEDA leaves the buffer null).
-/

namespace Zm.LE
open Zm Misc
variable {K : Type*} [Field K] [LinearOrder K]

/-! ## Products of matrices -/

/-- `zMulMatMatNC`, zm_mat.c:778-783 and zm_raw_mat.c:393-398; `n` is the number of columns of `a`. -/
def mulMM (n : Nat) (a b : Nat → Nat → K) : Nat → Nat → K := fun i j => inner n (a i) (fun k => b k j)

/-- `zMulMatTMatNC`, zm_mat.c:794-799 and zm_raw_mat.c:409-420; `n` is the number of rows of `a`. -/
def mulTMM (n : Nat) (a b : Nat → Nat → K) : Nat → Nat → K := fun i j => inner n (fun k => a k i) (fun k => b k j)

/-- `zMulMatMatTNC`, zm_mat.c:786-791 and zm_raw_mat.c:401-406; `n` is the number of columns of `a`. -/
def mulMMT (n : Nat) (a b : Nat → Nat → K) : Nat → Nat → K := fun i j => inner n (a i) (b j)

/-- `zMatIsTol`, zm_mat.c:444-447 and zm_raw_vec.c:76-81. -/
def matIsTol (tol : K) (rows cols : Nat) (m : Nat → Nat → K) : Bool := decide (∀ i, i < rows → ∀ j, j < cols → |m i j| ≤ tol)

/-- A matrix with `w` columns. -/
def unfin (w : Nat) (x : Nat → Fin w → K) : Nat → Nat → K := fun i j => if h : j < w then x i ⟨j, h⟩ else 0

/-! ## Cholesky decomposition -/

/-- State of the decomposition. -/
structure CholS (K : Type*) where
  m : Nat → Nat → K
  idx : Nat → Nat
  rank : Nat

/-- The row and the column of the pivot, zm_le_lu.c:113-116. -/
def cholScale (n i p : Nat) (idx : Nat → Nat) (c : K) (m : Nat → Nat → K) : Nat → Nat → K :=
  forUp (i+1) n (fun j m =>
    let m := set2 m p (idx j) (m p (idx j) * c)
    set2 m (idx j) p (m (idx j) p * c)) m

/-- The rest of the matrix, zm_le_lu.c:117-120. -/
def cholSub (n i p : Nat) (idx : Nat → Nat) (m : Nat → Nat → K) : Nat → Nat → K :=
  forUp (i+1) n (fun j m => forUp (i+1) n (fun k m =>
    set2 m (idx j) (idx k) (m (idx j) (idx k) - m (idx j) p * m p (idx k))) m) m

/-- One turn, zm_le_lu.c:101-120; a negative pivot is an error. -/
def cholStep (tol : K) (sqrt : K → K) (n i : Nat) (st : CholS K) : Res (CholS K) :=
  let idx := zMatPivotingDiag n st.m st.idx i
  let p := idx i
  let a := st.m p p
  if zIsTol a tol then .ok ⟨cholSub n i p idx (cholScale n i p idx 0 st.m), idx, st.rank⟩
  else if a < 0 then .fail
  else
    let m := set2 st.m p p (sqrt a)
    .ok ⟨cholSub n i p idx (cholScale n i p idx (1 / sqrt a) m), idx, st.rank + 1⟩

/-- The lower triangular matrix, zm_le_lu.c:122-125. -/
def cholL (n : Nat) (idx : Nat → Nat) (m : Nat → Nat → K) : Nat → Nat → K :=
  forUp 0 n (fun i l => forUp 0 (i+1) (fun j l => set2 l (idx i) j (m (idx i) (idx j))) l) (fun _ _ => 0)

/-- `zMatDecompCholesky` and `zMatDecompCholeskyDST`, zm_le_lu.c:93-148: the lower triangular matrix, the permutation and the rank. -/
def zMatDecompCholesky (tol : K) (sqrt : K → K) (n : Nat) (m : Nat → Nat → K) : Res ((Nat → Nat → K) × (Nat → Nat) × Nat) :=
  (forUpM 0 n (cholStep tol sqrt n) ⟨m, fun i => i, 0⟩).bind fun st => .ok (cholL n st.idx st.m, st.idx, st.rank)

/-! ## Residual iteration -/

/-- The test of zm_le.c:275 against the last norm. -/
def luriStop (old : Option K) (e : K) : Bool :=
  match old with
  | some o => decide (e ≥ o)
  | none => false

/-- The loop of `zLESolveLURI`, zm_le.c:272-279, with the number of turns left and the last norm (`none`: HUGE_VAL); the flag tells
whether it has ended before the limit. -/
def luriLoop (sqrt : K → K) (n : Nat) (a l u : Nat → Nat → K) (b : Nat → K) (idx : Nat → Nat) : Nat → Option K → (Nat → K) → (Nat → K) × Bool
  | 0, _, ans => (ans, false)
  | k+1, old, ans =>
    let res := zLEResidual n n a b ans
    let e := sqrt (inner n res res)
    if luriStop old e then (ans, true)
    else luriLoop sqrt n a l u b idx k (some e) (addTo n ans (zLESolveLU n l u res (fun _ => 0) idx))

/-- `zLESolveLURI`, zm_le.c:251-289; `limit` is Z_MAX_ITER_NUM. -/
def zLESolveLURI (tol : K) (sqrt : K → K) (limit n : Nat) (a : Nat → Nat → K) (b ans : Nat → K) : Res ((Nat → K) × Bool) :=
  (zMatDecompLU tol n n a).bind fun st =>
  if st.r < n then .fail
  else .ok (luriLoop sqrt n a st.l st.u b st.idx limit none (zLESolveLU n st.l st.u b ans st.idx))

/-! ## Gauss–Seidel method -/

/-- The permutation, zm_le.c:308-309. -/
def gsIdx (n : Nat) (a : Nat → Nat → K) : Nat → Nat := forUp 0 n (fun i idx => zMatPivoting n a idx i i) (fun i => i)

/-- One variable, zm_le.c:313-319; a division by zero is rendered as `ub`. -/
def gsRow (tol : K) (n : Nat) (a : Nat → Nat → K) (b : Nat → K) (idx : Nat → Nat) (j : Nat) (st : (Nat → K) × Nat) : Res ((Nat → K) × Nat) :=
  let p := idx j
  let x := forUp 0 n (fun k x => if k ≠ j then x - a p k * st.1 k else x) (b p)
  if a p j = 0 then .ub
  else
    let x := x / a p j
    .ok (set1 st.1 j x, if zIsTol (x - st.1 j) tol then st.2 + 1 else st.2)

/-- One sweep, zm_le.c:312-320: the vector and the number of variables that have hardly moved. -/
def gsSweep (tol : K) (n : Nat) (a : Nat → Nat → K) (b : Nat → K) (idx : Nat → Nat) (ans : Nat → K) : Res ((Nat → K) × Nat) :=
  forUpM 0 n (gsRow tol n a b idx) (ans, 0)

/-- The loop, zm_le.c:311-326, with the number of sweeps that may follow this one; the flag is false if the limit was reached. -/
def gsLoop (tol : K) (n : Nat) (a : Nat → Nat → K) (b : Nat → K) (idx : Nat → Nat) : Nat → (Nat → K) → Res ((Nat → K) × Bool)
  | 0, ans => (gsSweep tol n a b idx ans).bind fun s => .ok (s.1, decide (s.2 = n))
  | k+1, ans => (gsSweep tol n a b idx ans).bind fun s => if s.2 = n then .ok (s.1, true) else gsLoop tol n a b idx k s.1

/-- `zLESolveGaussSeidel`, zm_le.c:292-329; `ans` holds the initial value and `limit` is Z_MAX_ITER_NUM. -/
def zLESolveGaussSeidel (tol : K) (limit n : Nat) (a : Nat → Nat → K) (b ans : Nat → K) : Res ((Nat → K) × Bool) :=
  gsLoop tol n a b (gsIdx n a) limit ans

/-! ## Lyapunov equation -/

/-- The matrix of the equation, zm_le_lyapnov.c:39-44. -/
def lyapMat (n : Nat) (a : Nat → Nat → K) : Nat → Nat → K :=
  forUp 0 n (fun i w => forUp 0 n (fun j w => forUp 0 n (fun k w =>
    let w := set2 w (n*i+k) (n*k+j) (w (n*i+k) (n*k+j) + a j i)
    set2 w (n*k+i) (n*j+k) (w (n*k+i) (n*j+k) + a j i)) w) w) (fun _ _ => 0)

/-- `zLELyapnovSolve`, zm_le_lyapnov.c:10-55: the buffers of the transpose of `b` and of `ans` are used as vectors. -/
def zLELyapnovSolve (tol : K) (n : Nat) (a b ans : Nat → Nat → K) : Res (Nat → Nat → K) :=
  (gaussSolve tol (n*n) (lyapMat n a) (fun r => b (r % n) (r / n)) (fun r => ans (r / n) (r % n))).bind fun x => .ok fun i j => x (n*i+j)

/-! ## Inverse matrices -/

/-- `zMulMatInvMat`, zm_le_mat_inv.c:185-220: `m1` is `r1 × c1`, `m2` is `r2 × c2`, `m` is `r3 × c3`.  The elimination on the
transposes runs over `c3 = c1` columns of the transpose of `m2`, which has `c2`, and the balancing over `c2` rows of the transpose of `m1`, which has `c1`
(zm_le_mat_inv.c:50-72, 105-112): one of the two is read out of bounds if the numbers differ. -/
def zMulMatInvMat (tol : K) (r1 c1 r2 c2 r3 c3 : Nat) (m1 m2 : Nat → Nat → K) : Res (Nat → Nat → K) :=
  if r2 ≠ c2 then .fail
  else if r1 ≠ c2 ∨ ¬ (r1 = r3 ∧ c1 = c3) then .fail
  else if c1 ≠ c2 then .ub
  else (zMulInvMatMat tol c2 r1 (fun i j => m2 j i) (fun i j => m1 j i) (fun _ _ => 0)).bind fun x => .ok fun i j => unfin r1 x j i

/-- `zMatSqrNorm`, zm_mat.c:617-620. -/
def matSqrNorm (rows cols : Nat) (m : Nat → Nat → K) : K := forUp 0 rows (fun i x => forUp 0 cols (fun j x => x + m i j * m i j) x) 0

/-- The update of Hotelling's method, zm_le_mat_inv.c:368-371. -/
def hotStep (n : Nat) (m mc : Nat → Nat → K) : Nat → Nat → K := fun i j => 2 * mc i j - mulMM n mc (mulMM n m mc) i j

/-- The loop, zm_le_mat_inv.c:366-382, with the number of turns left, the matrix `mc` and the matrix `other` in the buffer that will
be overwritten; `inIm` tells whether `mc` is the buffer of the answer.  The outcome is what the answer holds, and whether
the loop has ended before the limit. -/
def hotLoop (tol : K) (n : Nat) (m : Nat → Nat → K) : Nat → (Nat → Nat → K) → (Nat → Nat → K) → Bool → (Nat → Nat → K) × Bool
  | 0, mc, other, inIm => (if inIm then mc else other, false)
  | k+1, mc, _, inIm =>
    let mn := hotStep n m mc
    if matIsTol tol n n (fun i j => mulMM n m mn i j - if i = j then 1 else 0) then (mc, true)
    else hotLoop tol n m k mn mc (!inIm)

/-- The initial value, zm_le_mat_inv.c:363-364; `zMatDiv` does nothing if the divisor is tiny (zm_mat.c:599-602). -/
def hotInit (ztol : K) (n : Nat) (m : Nat → Nat → K) : Nat → Nat → K :=
  if |matSqrNorm n n m| ≤ ztol then fun i j => m j i else fun i j => m j i * (1 / matSqrNorm n n m)

/-- `zMatInvHotelling`, zm_le_mat_inv.c:342-389, with `iter` turns (after ZITERINIT); `ztol` is zTOL. -/
def zMatInvHotelling (ztol tol : K) (iter n : Nat) (m : Nat → Nat → K) : (Nat → Nat → K) × Bool :=
  hotLoop tol n m iter (hotInit ztol n m) (fun _ _ => 0) true

/-! ## Moore–Penrose inverse -/

/-- The factor to the right of the transpose of `q`, zm_le_mat_mpinv.c:42-48; the result of the solver is not examined, so that
the zeros of the allocation are used when it fails. -/
def mpFactor (tol : K) (rows rank : Nat) (l : Nat → Nat → K) : Res (Nat → Nat → K) :=
  if rows = rank then (zMatInv tol rank l).bind fun x => .ok (unfin rank x)
  else match zMulInvMatMat tol rank rows (mulTMM rows l l) (fun i j => l j i) (fun _ _ => 0) with
    | .ok x => .ok (unfin rows x)
    | .fail => .ok (fun _ _ => 0)
    | .ub => .ub

/-- `zMatMPInv`, zm_le_mat_mpinv.c:35-53: the inverse and the rank; `ltol` is ZM_LQ_DECOMP_GRAMSCHMIDT_TOL.  For the rank 0 the workspace cannot
be allocated and the function fails. -/
def zMatMPInv (tol ltol : K) (sqrt : K → K) (rows cols : Nat) (m : Nat → Nat → K) : Res ((Nat → Nat → K) × Nat) :=
  let st := zMatDecompLQDST ltol sqrt rows cols m (fun _ _ => 0)
  if st.rank = 0 then .fail
  else (mpFactor tol rows st.rank st.l).bind fun t => .ok (mulTMM st.rank st.q t, st.rank)

/-- `zMatMPInvNull`, zm_le_mat_mpinv.c:56-77: also the matrix `mn`. -/
def zMatMPInvNull (tol ltol : K) (sqrt : K → K) (rows cols : Nat) (m : Nat → Nat → K) : Res ((Nat → Nat → K) × (Nat → Nat → K) × Nat) :=
  let st := zMatDecompLQDST ltol sqrt rows cols m (fun _ _ => 0)
  if st.rank = 0 then .fail
  else (mpFactor tol rows st.rank st.l).bind fun t =>
    .ok (mulTMM st.rank st.q t, forUp 0 cols (fun i mn => set2 mn i i (mn i i - 1)) (mulTMM st.rank st.q st.q), st.rank)

/-- The factor of `zMulMPInvMatMat`, zm_le_mat_mpinv.c:87-93, for `m2` with `w` columns. -/
def mpFactorMul (tol : K) (rows rank w : Nat) (l m2 : Nat → Nat → K) : Res (Nat → Nat → K) :=
  match (if rows = rank then zMulInvMatMat tol rank w l m2 (fun _ _ => 0)
    else zMulInvMatMat tol rank w (mulTMM rows l l) (mulTMM rows l m2) (fun _ _ => 0)) with
  | .ok x => .ok (unfin w x)
  | .fail => .ok (fun _ _ => 0)
  | .ub => .ub

/-- `zMulMPInvMatMat`, zm_le_mat_mpinv.c:80-98, for `m2` with `w` columns. -/
def zMulMPInvMatMat (tol ltol : K) (sqrt : K → K) (rows cols w : Nat) (m1 m2 : Nat → Nat → K) : Res (Nat → Nat → K) :=
  let st := zMatDecompLQDST ltol sqrt rows cols m1 (fun _ _ => 0)
  if st.rank = 0 then .fail
  else (mpFactorMul tol rows st.rank w st.l m2).bind fun t => .ok (mulTMM st.rank st.q t)

/-- `zMatTraceNC`, zm_mat.c:748-751. -/
def trace (n : Nat) (m : Nat → Nat → K) : K := forUp 0 n (fun i x => x + m i i) 0

/-- State of Penrose's iteration. -/
structure PenS (K : Type*) where
  c : Nat → Nat → K
  c2 : Nat → Nat → K
  cb : Nat → Nat → K
  trace : K
  rank : Nat

/-- One turn, zm_le_mat_mpinv.c:119-124. -/
def penStep (n : Nat) (b : Nat → Nat → K) (st : PenS K) : PenS K :=
  let t := trace n st.cb
  let c2 : Nat → Nat → K := fun i j => (if i = j then t / (st.rank : K) else 0) - st.cb i j
  { c := st.c2, c2 := c2, cb := mulMM n c2 b, trace := t, rank := st.rank + 1 }

/-- The loop, zm_le_mat_mpinv.c:118-125; it has no limit in the code, running out of `fuel` is `ub`. -/
def penLoop (tol : K) (n : Nat) (b : Nat → Nat → K) : Nat → PenS K → Res (PenS K)
  | 0, st => if matIsTol tol n n st.cb then .ok st else .ub
  | k+1, st => if matIsTol tol n n st.cb then .ok st else penLoop tol n b k (penStep n b st)

/-- `_zMatMPInvPenrose`, zm_le_mat_mpinv.c:103-131; the division by the trace is `ub` if it is zero. -/
def penrose (tol : K) (fuel rows cols : Nat) (m : Nat → Nat → K) : Res ((Nat → Nat → K) × Nat) :=
  let b := mulTMM rows m m
  (penLoop tol cols b fuel ⟨fun _ _ => 0, fun i j => if i = j then 1 else 0, b, 0, 1⟩).bind fun st =>
  if st.trace = 0 then .ub
  else .ok (mulMMT cols (fun i j => st.c i j * ((st.rank - 1 : Nat) / st.trace)) m, st.rank - 1)

/-- `zMatMPInvPenrose`, zm_le_mat_mpinv.c:134-147: the transpose is treated if there are more columns than rows. -/
def zMatMPInvPenrose (tol : K) (fuel rows cols : Nat) (m : Nat → Nat → K) : Res ((Nat → Nat → K) × Nat) :=
  if cols > rows then (penrose tol fuel cols rows (fun i j => m j i)).bind fun r => .ok (fun i j => r.1 j i, r.2)
  else penrose tol fuel rows cols m

/-! ## Generalised solution by singular values -/

/-- `zLESolveMP_SVD`, zm_le_gen.c:331-358, with the eigensolver `eig`; the division by a singular value is `ub` if it is zero. -/
def zLESolveMP_SVD (sqrt : K → K) (svtol : K) (eig : (Nat → Nat → K) → Res ((Nat → K) × (Nat → Nat → K) × Bool)) (rows cols : Nat) (a : Nat → Nat → K)
    (b ans : Nat → K) : Res (Nat → K) :=
  (Eig.zMatSVD sqrt svtol eig rows cols a).bind fun s =>
  let tmp := mulTVec rows s.rank s.u b (fun _ => 0)
  if ∃ i, i < s.rank ∧ s.sv i = 0 then .ub
  else
    let tmp := forUp 0 s.rank (fun i v => set1 v i (v i / s.sv i)) tmp
    .ok (mulTVec s.rank cols s.v tmp ans)

end Zm.LE
