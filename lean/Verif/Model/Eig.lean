import Verif.Model.LEGen
import Verif.Model.Stat
import Verif.Model.OneD

/-!
# Eigensystems of matrices and singular value decomposition (zm_mat_eig.c)

Matrices are functions as in `Model/LE.lean`.  `sqrt` is a parameter; `tol` is the tolerance `zTOL`.  The real parts of the
two roots that `zQESolve` delivers are a parameter `qe`.  Sizes agree (otherwise the functions return an error) and
allocation succeeds.  Where the code addresses an element outside of the matrix, the access is checked.
-/

namespace Zm.Eig
open Zm Misc LE
variable {K : Type*} [Field K] [LinearOrder K]

/-! ## Jacobi's method -/

/-- One step of the loop of `_zMatSymEigJacobiRot`, zm_mat_eig.c:525-539, on the matrix and the base. -/
def rotBody (c s : K) (i j k : Nat) (t : (Nat → Nat → K) × (Nat → Nat → K)) : (Nat → Nat → K) × (Nat → Nat → K) :=
  let V := set2 (set2 t.2 k i (c * t.2 k i + s * t.2 k j)) k j (-s * t.2 k i + c * t.2 k j)
  if k = i ∨ k = j then (t.1, V) else
  let m := set2 (set2 t.1 i k (c * t.1 i k + s * t.1 j k)) j k (-s * t.1 i k + c * t.1 j k)
  let m := set2 m k i (m i k)
  (set2 m k j (m j k), V)

/-- The half difference of zm_mat_eig.c:515. -/
def rotAd (m : Nat → Nat → K) (i j : Nat) : K := (m i i - m j j) / 2

/-- The signed root of zm_mat_eig.c:516-517. -/
def rotTi (sqrt : K → K) (m : Nat → Nat → K) (i j : Nat) : K :=
  let ti := sqrt (rotAd m i j * rotAd m i j + m i j * m i j)
  if rotAd m i j < 0 then -ti else ti

/-- The cosine of zm_mat_eig.c:518. -/
def rotC (sqrt : K → K) (m : Nat → Nat → K) (i j : Nat) : K := sqrt (1 / 2 + rotAd m i j / 2 / rotTi sqrt m i j)

/-- The sine of zm_mat_eig.c:519. -/
def rotS (sqrt : K → K) (m : Nat → Nat → K) (i j : Nat) : K := m i j / 2 / (rotTi sqrt m i j * rotC sqrt m i j)

/-- `_zMatSymEigJacobiRot`, zm_mat_eig.c:508-540; a zero divisor is undefined. -/
def jacobiRot (sqrt : K → K) (n i j : Nat) (m V : Nat → Nat → K) : Res ((Nat → Nat → K) × (Nat → Nat → K)) :=
  let as := (m i i + m j j) / 2
  let ti := rotTi sqrt m i j
  let c := rotC sqrt m i j
  let s := rotS sqrt m i j
  if ti = 0 ∨ ti * c = 0 then .ub else
  .ok (forUp 0 n (rotBody c s i j) (set2 (set2 (set2 (set2 m i i (as + ti)) j j (as - ti)) i j 0) j i 0, V))

/-- The state of `zMatSymEigJacobi`: matrix, base and `is_complete`. -/
structure JS (K : Type*) where
  d : Nat → Nat → K
  V : Nat → Nat → K
  done : Bool

/-- One element of a sweep, zm_mat_eig.c:561-564. -/
def jacobiStep (sqrt : K → K) (tol : K) (n i j : Nat) (s : JS K) : Res (JS K) :=
  if |s.d i j| ≤ tol then .ok s else
  (jacobiRot sqrt n i j s.d s.V).bind fun r => .ok ⟨r.1, r.2, false⟩

/-- One sweep, zm_mat_eig.c:558-565. -/
def sweep (sqrt : K → K) (tol : K) (n : Nat) (s : JS K) : Res (JS K) :=
  forUpM 1 n (fun i s => forUpM 0 i (fun j s => jacobiStep sqrt tol n i j s) s) ⟨s.d, s.V, true⟩

/-- The loop of zm_mat_eig.c:557-570 with the counter `cnt`; the limit is `Z_MAX_ITER_NUM`. -/
def jacobiLoop (sqrt : K → K) (tol : K) (limit n : Nat) : Nat → Nat → JS K → Res (JS K)
  | 0, _, _ => .ub
  | fuel+1, cnt, s => (sweep sqrt tol n s).bind fun s =>
    if cnt > limit then .ok s else if s.done then .ok s else jacobiLoop sqrt tol limit n fuel (cnt+1) s

/-- The shift of `_zMatSymEigJacobiShift`, zm_mat_eig.c:493-505: the root of the leading block nearest to its first entry. -/
def jacobiShift (qe : K → K → K → K × K) (m : Nat → Nat → K) : K :=
  let r := qe 1 (-(m 0 0) - m 1 1) (m 0 0 * m 1 1 - m 1 0 * m 0 1)
  if |r.1 - m 0 0| < |r.2 - m 0 0| then r.1 else r.2

/-- `zMatSymEigJacobi`, zm_mat_eig.c:543-577: eigenvalues, base, and (not seen by the caller) whether the sweeps completed.
A matrix of size less than two has no element (1,1), which the computation of the shift reads. -/
def zMatSymEigJacobi (sqrt : K → K) (tol : K) (limit : Nat) (qe : K → K → K → K × K) (n : Nat) (m : Nat → Nat → K) :
    Res ((Nat → K) × (Nat → Nat → K) × Bool) :=
  if n < 2 then .ub else
  let c := jacobiShift qe m
  (jacobiLoop sqrt tol limit n (limit + 2) 0
    ⟨fun i j => if i = j then m i j - c else m i j, fun i j => if i = j then 1 else 0, true⟩).bind fun s =>
  .ok (fun j => s.d j j + c, s.V, s.done)

/-! ## Singular value decomposition -/

/-- `zMatSwapColNC`, zm_raw_mat.c. -/
def swapCol (m : Nat → Nat → K) (i j : Nat) : Nat → Nat → K := fun k => swap1 (m k) i j

/-- The selection of `_zMatSVDSort`, zm_mat_eig.c:585-591, from the position `i` on; delivers values, base and the position
of the end.  `svtol` is `ZM_MAT_SVD_TOL`, `lim` the smaller of the sizes. -/
def svdSelect (sqrt : K → K) (svtol : K) (rows lim : Nat) : Nat → Nat → (Nat → K) → (Nat → Nat → K) → (Nat → K) × (Nat → Nat → K) × Nat
  | 0, i, sv, u => (sv, u, i)
  | fuel+1, i, sv, u =>
    if i < lim then
      let r := Stat.zDataMax (fun k => sv (i + k)) (rows - i)
      if |r.1| ≤ svtol then (sv, u, i) else
      let sv := swap1 sv i (r.2 + i)
      svdSelect sqrt svtol rows lim fuel (i+1) (set1 sv i (sqrt (sv i))) (swapCol u i (r.2 + i))
    else (sv, u, i)

/-- `_zMatSVDSort`, zm_mat_eig.c:580-596: values, base and rank. -/
def zMatSVDSort (sqrt : K → K) (svtol : K) (rows cols : Nat) (sv : Nat → K) (u : Nat → Nat → K) : (Nat → K) × (Nat → Nat → K) × Nat :=
  let r := svdSelect sqrt svtol rows (min rows cols) (min rows cols) 0 sv u
  (forUp r.2.2 rows (fun i sv => set1 sv i 0) r.1, r.2.1, r.2.2)

/-- The outcome of `zMatSVD`. -/
structure SVD (K : Type*) where
  rank : Nat
  u : Nat → Nat → K
  sv : Nat → K
  v : Nat → Nat → K

/-- `zMatSVD`, zm_mat_eig.c:599-631, with the eigensolver `eig` (the library calls `zMatSymEigJacobi`). -/
def zMatSVD (sqrt : K → K) (svtol : K) (eig : (Nat → Nat → K) → Res ((Nat → K) × (Nat → Nat → K) × Bool)) (rows cols : Nat) (m : Nat → Nat → K) :
    Res (SVD K) :=
  (eig (mulMatSelfT rows cols m)).bind fun e =>
  let r := zMatSVDSort sqrt svtol rows cols e.1 e.2.1
  if ∃ i, i < r.2.2 ∧ r.1 i = 0 then .ub else
  .ok ⟨r.2.2, r.2.1, r.1, fun i j => inner rows (fun k => r.2.1 k i) (fun k => m k j) * (1 / r.1 i)⟩

/-! ## Hessenberg form -/

/-- `_zMatToHessenbergHouseholderVec`, zm_mat_eig.c:54-66, with `to` the size of the matrix. -/
def hessVec (sqrt : K → K) (tol : K) (n : Nat) (m : Nat → Nat → K) (col from_ : Nat) (u : Nat → K) : Nat → K :=
  let r := forUp from_ n (fun i (t : (Nat → K) × K) => (set1 t.1 i (m i col), t.2 + m i col * m i col)) (u, 0)
  if |r.2| ≤ tol then r.1 else
  let s := -zSgn (m from_ col) * sqrt r.2
  let u := set1 r.1 from_ (r.1 from_ - s)
  forUp from_ n (fun i u => set1 u i (u i * (1 / sqrt (2 * (s - m from_ col) * s)))) u

/-- `_zMatToHessenbergHouseholder`, zm_mat_eig.c:10-38: the matrix. -/
def hessApply (n : Nat) (m : Nat → Nat → K) (from_ : Nat) (u : Nat → K) : Nat → Nat → K :=
  let v := fun i => forUp from_ n (fun j x => x + m i j * u j) 0 * 2
  let w := fun i => forUp from_ n (fun j x => x + m j i * u j) 0 * 2
  let a := forUp from_ n (fun j x => x + v j * u j) 0
  let v := forUp from_ n (fun i v => set1 v i (v i - a * u i)) v
  let w := forUp from_ n (fun i w => set1 w i (w i - a * u i)) w
  forUp 0 n (fun i m => forUp from_ n (fun j m =>
    let m := set2 m i j (m i j - v i * u j)
    set2 m j i (m j i - u j * w i)) m) m

/-- `_zMatToHessenbergHouseholder`, zm_mat_eig.c:40-50: the transformation matrix. -/
def hessApplyP (n : Nat) (p : Nat → Nat → K) (from_ : Nat) (u : Nat → K) : Nat → Nat → K :=
  let v := fun i => forUp from_ n (fun j x => x + p i j * u j) 0 * 2
  forUp 0 n (fun i p => forUp from_ n (fun j p => set2 p i j (p i j - v i * u j)) p) p

/-- The state of `zMatToHessenberg`. -/
structure HS (K : Type*) where
  h : Nat → Nat → K
  p : Nat → Nat → K
  u : Nat → K

/-- One column, zm_mat_eig.c:98-104; `fuel` bounds the rounds, a computation that needs more of them does not end. -/
def hessCol (sqrt : K → K) (tol : K) (size n : Nat) : Nat → HS K → Res (HS K)
  | 0, _ => .ub
  | fuel+1, s =>
    let u := hessVec sqrt tol size s.h n (n+1) s.u
    let s : HS K := ⟨hessApply size s.h (n+1) u, hessApplyP size s.p (n+1) u, u⟩
    if ∃ i, i < size ∧ n + 2 ≤ i ∧ ¬ |s.h i n| ≤ tol then hessCol sqrt tol size n fuel s else .ok s

/-- `zMatToHessenberg`, zm_mat_eig.c:68-108, of a square matrix, with the transformation matrix. -/
def zMatToHessenberg (sqrt : K → K) (tol : K) (fuel size : Nat) (m : Nat → Nat → K) : Res ((Nat → Nat → K) × (Nat → Nat → K)) :=
  (forUpM 0 (size - 2) (fun n s => hessCol sqrt tol size n fuel s) ⟨m, fun i j => if i = j then 1 else 0, fun _ => 0⟩).bind fun s =>
  .ok (s.h, s.p)

/-! ## Power method -/

/-- `zVecNormalize`, zm_raw_vec.c:302-313: the destination is untouched if the norm is tiny. -/
def normalize (sqrt : K → K) (tol : K) (n : Nat) (src dest : Nat → K) : Nat → K :=
  let l := sqrt (inner n src src)
  if |l| ≤ tol then dest else fun i => if i < n then src i * (1 / l) else dest i

/-- The state of `zMatEigPower`. -/
structure PS (K : Type*) where
  x : Nat → K
  ev : Nat → K
  val : K
  done : Bool

/-- The loop of `zMatEigPower`, zm_mat_eig.c:208-214. -/
def powerLoop (sqrt : K → K) (tol : K) (n : Nat) (m : Nat → Nat → K) : Nat → PS K → PS K
  | 0, s => s
  | k+1, s =>
    let ev := normalize sqrt tol n s.x s.ev
    let x := mulVec n n m ev s.x
    let val := inner n ev x
    if ∀ i, i < n → |x i + -val * ev i| ≤ tol then ⟨x, ev, val, true⟩ else powerLoop sqrt tol n m k ⟨x, ev, val, false⟩

/-- `zMatEigPower`, zm_mat_eig.c:196-221: eigenvalue, vector and (not seen by the caller) the normalised vector and whether
the iteration converged; the initial vector `x0` is the random one.  The division by zero is refused by `zVecDiv`. -/
def zMatEigPower (sqrt : K → K) (tol : K) (n : Nat) (m : Nat → Nat → K) (iter : Int) (x0 : Nat → K) : K × (Nat → K) × (Nat → K) × Bool :=
  let s := powerLoop sqrt tol n m (OneD.iterInit iter) ⟨x0, fun _ => 0, 1, false⟩
  (s.val, if s.val = 0 then s.x else fun i => s.x i * (1 / s.val), s.ev, s.done)

/-! ## Checked accesses -/

/-- Reading the element of row `i` and column `j` of a square matrix: the place `i n + j` of a block of `n n` numbers. -/
def rdm (n : Nat) (a : Nat → K) (i j : Nat) : Res K := if i * n + j < n * n then .ok (a (i * n + j)) else .ub

/-- Writing it. -/
def wrm (n : Nat) (a : Nat → K) (i j : Nat) (x : K) : Res (Nat → K) := if i * n + j < n * n then .ok (set1 a (i * n + j) x) else .ub

/-- `_zMatSymEigBisecRange`, zm_mat_eig.c:377-389, with the range and the last neighbour as state. -/
def bisecRange (n : Nat) (a : Nat → K) : Res (K × K × K) :=
  forUpM 0 n (fun i t =>
    (if i < n then (rdm n a i (i+1)).bind fun x => .ok |x| else .ok 0).bind fun mr =>
    (rdm n a i i).bind fun d =>
    .ok (if d - (t.2.2 + mr) < t.1 then d - (t.2.2 + mr) else t.1, if d + (t.2.2 + mr) > t.2.1 then d + (t.2.2 + mr) else t.2.1, mr)) (0, 0, 0)

/-- One pass of a reflection over three elements given by the places `p`, `q`, `r`, zm_mat_eig.c:126-129 and 132-135. -/
def dqrReflect (n : Nat) (g2 g3 alpha : K) (p q r : Nat × Nat) (a : Nat → K) : Res (Nat → K) :=
  (rdm n a p.1 p.2).bind fun x => (rdm n a q.1 q.2).bind fun y => (rdm n a r.1 r.2).bind fun z =>
  let s := (x + g2 * y + g3 * z) * alpha
  (wrm n a p.1 p.2 (x - s)).bind fun a => (wrm n a q.1 q.2 (y - s * g2)).bind fun a => wrm n a r.1 r.2 (z - s * g3)

/-- `_zMatEigDQRHouseholder`, zm_mat_eig.c:113-136. -/
def dqrHouseholder (sqrt : K → K) (n r c : Nat) (g1 g2 g3 : K) (a : Nat → K) : Res (Nat → K) :=
  let s := sqrt (g1 * g1 + g2 * g2 + g3 * g3)
  let den := g1 + if g1 > 0 then s else -s
  if den = 0 then .ub else
  let g2 := g2 / den
  let g3 := g3 / den
  let alpha := 2 / (1 + g2 * g2 + g3 * g3)
  (forUpM (c - 1) (r + 1) (fun i a => dqrReflect n g2 g3 alpha (c, i) (c+1, i) (c+2, i) a) a).bind fun a =>
  forUpM 0 (max r (min (c + 3) (n - 1)) + 1) (fun i a => dqrReflect n g2 g3 alpha (i, c) (i, c+1) (i, c+2) a) a

/-- One step of the double QR method, zm_mat_eig.c:170-183, for `r` at least two. -/
def dqrStep (sqrt : K → K) (n r : Nat) (a : Nat → K) : Res (Nat → K) :=
  (rdm n a (r-1) (r-1)).bind fun x11 => (rdm n a r r).bind fun x22 => (rdm n a (r-1) r).bind fun x12 => (rdm n a r (r-1)).bind fun x21 =>
  (rdm n a 0 0).bind fun a0 => (rdm n a 1 0).bind fun a1 => (rdm n a 0 1).bind fun y01 => (rdm n a 1 1).bind fun y11 => (rdm n a 2 1).bind fun y21 =>
  let c := x11 * x22 - x12 * x21
  let b := -x11 - x22 + a0
  (dqrHouseholder sqrt n r 0 (y01 * a1 + a0 * b + c) ((y11 + b) * a1) (y21 * a1) a).bind fun a =>
  (forUpM 1 (r - 1) (fun j a =>
    (rdm n a j (j-1)).bind fun x => (rdm n a (j+1) (j-1)).bind fun y => (rdm n a (j+2) (j-1)).bind fun z => dqrHouseholder sqrt n r j x y z a) a).bind fun a =>
  (rdm n a (r-1) (r-2)).bind fun x => (rdm n a r (r-2)).bind fun y => dqrHouseholder sqrt n r (r-1) x y 0 a

/-- The eigenvalues found so far by `zMatEigDQR` and the matrix, zm_mat_eig.c:160-186, with `r` counted from one (`k = r + 1`
eigenvalues are still missing).  `C` is the type of complex numbers, `re` makes one of a real number and `qe` gives the roots
of `zQESolve`.  `fuel` bounds the number of passes: the outer loop repeats until the inner one finds something. -/
def dqrLoop {C : Type*} (sqrt : K → K) (tol : K) (re : K → C) (qe : K → K → K → C × C) (n : Nat) : Nat → Nat → (Nat → K) → (Nat → C) → Res (Nat → C)
  | 0, _, _, _ => .ub
  | _+1, 0, _, ev => .ok ev
  | _+1, 1, a, ev => (rdm n a 0 0).bind fun x => .ok (set1 ev 0 (re x))
  | fuel+1, k+2, a, ev =>
    (rdm n a (k+1) k).bind fun x21 => (rdm n a (k+1) (k+1)).bind fun x22 =>
    if |x21| ≤ tol then dqrLoop sqrt tol re qe n fuel (k+1) a (set1 ev (k+1) (re x22)) else
    (rdm n a k k).bind fun x11 => (rdm n a k (k+1)).bind fun x12 =>
    (if k = 0 then Res.ok true else (rdm n a k (k-1)).bind fun y => .ok (decide (|y| ≤ tol))).bind fun split =>
    if split then
      let r := qe 1 (-x11 - x22) (x11 * x22 - x12 * x21)
      dqrLoop sqrt tol re qe n fuel k a (set1 (set1 ev k r.1) (k+1) r.2)
    else (dqrStep sqrt n (k+1) a).bind fun a => dqrLoop sqrt tol re qe n fuel (k+2) a ev

end Zm.Eig
