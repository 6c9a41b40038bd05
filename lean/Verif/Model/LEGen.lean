import Verif.Model.LE

/-!
# Generalised linear equations (zm_le_gen.c) and LQ decomposition (zm_le_lq.c)

Matrices are functions as in `Model/LE.lean`.  Weights may be a null pointer: `none`.  Sizes agree and allocation
succeeds; `sqrt` is a parameter.  Inner products use a compensated summation, which in exact arithmetic is the sum
(`Props/RawVec.lean`).
-/

namespace Zm.LE
open Zm Misc
variable {K : Type*} [Field K] [LinearOrder K]

/-- A weight that may be a null pointer. -/
def wt (w : Option (Nat → K)) (k : Nat) : K := match w with
  | some w => w k
  | none => 1

/-- Inner product, zm_raw_vec.c:267-278. -/
def inner (n : Nat) (u v : Nat → K) : K := forUp 0 n (fun k x => x + u k * v k) 0

/-- The weighted factor, zm_mat.c:888 and 925; without a weight the multiplication is left out. -/
def quadWa (w : Option (Nat → K)) (k : Nat) (x : K) : K := match w with
  | some w => w k * x
  | none => x

/-- One term of `zMatQuadNC`, zm_mat.c:887-891. -/
def quadTerm (n k : Nat) (w : Option (Nat → K)) (b : Nat → K) (i : Nat) (q : Nat → Nat → K) : Nat → Nat → K :=
  forUp i n (fun j q => set2 q i j (q i j + quadWa w k (b i) * b j)) q

/-- The copy of the upper half to the lower half, zm_mat.c:892-894 and 929-931. -/
def quadCopy (n : Nat) (q : Nat → Nat → K) : Nat → Nat → K :=
  forUp 0 n (fun i q => forUp i n (fun j q => set2 q j i (q i j)) q) q

/-- `zMatQuadNC`, zm_mat.c:880-896: `a diag(w) a^T`. -/
def zMatQuadNC (rows cols : Nat) (a : Nat → Nat → K) (w : Option (Nat → K)) : Nat → Nat → K :=
  quadCopy rows (forUp 0 cols (fun k q => forUp 0 rows (quadTerm rows k w (fun i => a i k)) q) (fun _ _ => 0))

/-- `zMatTQuadNC`, zm_mat.c:917-933: `a^T diag(w) a`. -/
def zMatTQuadNC (rows cols : Nat) (a : Nat → Nat → K) (w : Option (Nat → K)) : Nat → Nat → K :=
  quadCopy cols (forUp 0 rows (fun k q => forUp 0 cols (quadTerm cols k w (fun i => a k i)) q) (fun _ _ => 0))

/-- `zMulMatMatMatTNC`, zm_mat.c:954-969: `a q a^T`, with `a` of `rows` rows and `q` of size `n`. -/
def zMulMatMatMatTNC (rows n : Nat) (a q : Nat → Nat → K) : Nat → Nat → K :=
  forUp 0 n (fun i m => forUp 0 rows (fun j m =>
    let y := forUp 0 n (fun k y => y + q i k * a j k) 0
    forUp 0 rows (fun k m => set2 m k j (m k j + a k i * y)) m) m) (fun _ _ => 0)

/-- `zMulMatTMatMatNC`, zm_mat.c:986-1001: `a^T q a`, with `a` of `cols` columns and `q` of size `n`. -/
def zMulMatTMatMatNC (n cols : Nat) (a q : Nat → Nat → K) : Nat → Nat → K :=
  forUp 0 n (fun i m => forUp 0 cols (fun j m =>
    let y := forUp 0 n (fun k y => y + q i k * a k j) 0
    forUp 0 cols (fun k m => set2 m k j (m k j + a i k * y)) m) m) (fun _ _ => 0)

/-- `zMulMatMatTNC` with the same matrix twice, zm_mat.c:786-791 and zm_raw_mat.c:401-406. -/
def mulMatSelfT (rows cols : Nat) (a : Nat → Nat → K) : Nat → Nat → K := fun i j => inner cols (a j) (a i)

/-- `zMulMatTVecNC`, zm_mat.c:771-775 and zm_raw_mat.c:384-390. -/
def mulTVec (rows cols : Nat) (a : Nat → Nat → K) (v ans : Nat → K) : Nat → K :=
  forUp 0 cols (fun j ans => set1 ans j (inner rows (fun i => a i j) v)) ans

/-- `zMulMatVecNC`, zm_mat.c:764-768 and zm_raw_mat.c:377-381. -/
def mulVec (rows cols : Nat) (a : Nat → Nat → K) (v ans : Nat → K) : Nat → K :=
  forUp 0 rows (fun i ans => set1 ans i (inner cols (a i) v)) ans

/-- `zVecAmpNCDRC` if there is a weight, zm_raw_vec.c:122-125. -/
def amp (n : Nat) (w : Option (Nat → K)) (v : Nat → K) : Nat → K := match w with
  | some w => forUp 0 n (fun i v => set1 v i (v i * w i)) v
  | none => v

/-- `zVecAddNCDRC`. -/
def addTo (n : Nat) (v u : Nat → K) : Nat → K := forUp 0 n (fun i v => set1 v i (v i + u i)) v

/-- `zLEResidual`, zm_le.c:119-123. -/
def zLEResidual (rows cols : Nat) (a : Nat → Nat → K) (b x : Nat → K) : Nat → K :=
  forUp 0 rows (fun i r => set1 r i (b i - r i)) (mulVec rows cols a x (fun _ => 0))

/-- The matrix of zm_le_gen.c:167 and 224. -/
def normMat (rows cols : Nat) (a : Nat → Nat → K) (w : Option (Nat → K)) : Nat → Nat → K :=
  match w with
  | some _ => zMatQuadNC rows cols a w
  | none => mulMatSelfT rows cols a

/-- `zLESolveNormMinDST`, zm_le_gen.c:165-171, from the permutation `idx`. -/
def zLESolveNormMinDST (tol : K) (rows cols : Nat) (idx : Nat → Nat) (a : Nat → Nat → K) (b : Nat → K) (w : Option (Nat → K)) (ans : Nat → K) : Res ((Nat → K) × (Nat → Nat)) :=
  (gaussSolveIdx tol rows idx (normMat rows cols a w) b (fun _ => (0 : K))).bind fun r =>
  .ok (amp cols w (mulTVec rows cols a r.1 ans), r.2)

/-- `zLESolveNormMin`, zm_le_gen.c:174-190. -/
def zLESolveNormMin (tol : K) (rows cols : Nat) (a : Nat → Nat → K) (b : Nat → K) (w : Option (Nat → K)) (ans : Nat → K) : Res (Nat → K) :=
  (zLESolveNormMinDST tol rows cols (fun i => i) a b w ans).bind fun r => .ok r.1

/-- `zLESolveErrorMinDST`, zm_le_gen.c:193-199, from the permutation `idx`. -/
def zLESolveErrorMinDST (tol : K) (rows cols : Nat) (idx : Nat → Nat) (a : Nat → Nat → K) (b : Nat → K) (w : Option (Nat → K)) (ans : Nat → K) : Res ((Nat → K) × (Nat → Nat)) :=
  gaussSolveIdx tol cols idx (zMatTQuadNC rows cols a w) (mulTVec rows cols a (amp rows w b) (fun _ => 0)) ans

/-- `zLESolveErrorMin`, zm_le_gen.c:202-218. -/
def zLESolveErrorMin (tol : K) (rows cols : Nat) (a : Nat → Nat → K) (b : Nat → K) (w : Option (Nat → K)) (ans : Nat → K) : Res (Nat → K) :=
  (zLESolveErrorMinDST tol rows cols (fun i => i) a b w ans).bind fun r => .ok r.1

/-- `zLESolveRefNormMin`, zm_le_gen.c:222-249. -/
def zLESolveRefNormMin (tol : K) (rows cols : Nat) (a : Nat → Nat → K) (b : Nat → K) (w : Option (Nat → K)) (ref ans : Nat → K) : Res (Nat → K) :=
  (gaussSolveIdx tol rows (fun i => i) (normMat rows cols a w) (zLEResidual rows cols a b ref) (fun _ => (0 : K))).bind fun r =>
  .ok (addTo cols (amp cols w (mulTVec rows cols a r.1 ans)) ref)

/-- The addition to the diagonal, zm_le_gen.c:413-414 and 463-464. -/
def addDiag (n : Nat) (m : Nat → Nat → K) (d : Nat → K) : Nat → Nat → K := forUp 0 n (fun i m => set2 m i i (m i i + d i)) m

/-- `zLESolveSRBias`, zm_le_gen.c:406-428; the weight of the error is not a null pointer, since its size is read. -/
def zLESolveSRBias (tol : K) (rows cols : Nat) (a : Nat → Nat → K) (b wn we : Nat → K) (bias : K) (ans : Nat → K) : Res (Nat → K) :=
  (gaussSolveIdx tol cols (fun i => i) (addDiag cols (zMatTQuadNC rows cols a (some we)) (fun i => wn i + bias)) (mulTVec rows cols a (amp rows (some we) b) (fun _ => 0)) ans).bind
    fun r => .ok r.1

/-- `zLESolveSRAux`, zm_le_gen.c:439-451; the result of the solver is not examined, so that the vector given is used when it fails. -/
def zLESolveSRAux (tol : K) (rows cols : Nat) (a : Nat → Nat → K) (b wn we ans aux : Nat → K) : Res (Nat → K) :=
  match zLESolveSRBias tol rows cols a (zLEResidual rows cols a b aux) wn we 0 ans with
  | .ok x => .ok (addTo cols x aux)
  | .fail => .ok (addTo cols ans aux)
  | .ub => .ub

/-- `zLESolveSRRef`, zm_le_gen.c:454-478. -/
def zLESolveSRRef (tol : K) (rows cols : Nat) (a : Nat → Nat → K) (b wn we ref ans : Nat → K) : Res (Nat → K) :=
  (gaussSolveIdx tol cols (fun i => i) (addDiag cols (zMatTQuadNC rows cols a (some we)) wn)
    (forUp 0 cols (fun i v => set1 v i (v i + wn i * ref i)) (mulTVec rows cols a (amp rows (some we) b) (fun _ => 0))) ans).bind fun r => .ok r.1

/-! ## LQ decomposition -/

/-- State of the decomposition. -/
structure LQS (K : Type*) where
  m : Nat → Nat → K
  l : Nat → Nat → K
  q : Nat → Nat → K
  rank : Nat

/-- Removal of the component along one row of `q`, zm_le_lq.c:19-21. -/
def lqSub (cols i : Nat) (j : Nat) (st : LQS K) : LQS K :=
  let r := inner cols (st.m i) (st.q j)
  { st with m := forUp 0 cols (fun k m => set2 m i k (m i k + st.q j k * (-r))) st.m, l := set2 st.l i j r }

/-- One row, zm_le_lq.c:17-26.  The row `rank` of `q` and the column `rank` of `l` exist, since `rank ≤ i`. -/
def lqStep (tol : K) (sqrt : K → K) (cols i : Nat) (st : LQS K) : LQS K :=
  let st := forUp 0 st.rank (lqSub cols i) st
  let r := sqrt (inner cols (st.m i) (st.m i))
  if |r| ≤ tol then st
  else { m := st.m, q := forUp 0 cols (fun k q => set2 q st.rank k (st.m i k * (1 / r))) st.q, l := set2 st.l i st.rank r,
         rank := if st.rank < cols then st.rank + 1 else st.rank }

/-- `zMatDecompLQ_GramSchmidt_DST`, zm_le_lq.c:10-29. -/
def zMatDecompLQDST (tol : K) (sqrt : K → K) (rows cols : Nat) (m q : Nat → Nat → K) : LQS K :=
  forUp 0 rows (lqStep tol sqrt cols) { m := m, l := fun _ _ => 0, q := q, rank := 0 }

/-- `zMatDecompLQ_GramSchmidt`, zm_le_lq.c:32-44, which is `zMatDecompLQ`.  `zMatZero` writes through the pointer `l`: a null pointer is undefined behaviour.  `q` holds what it held
where it is not written. -/
def zMatDecompLQ (tol : K) (sqrt : K → K) (rows cols : Nat) (m q : Nat → Nat → K) (lnull : Bool) : Res (LQS K) :=
  if lnull then .ub else .ok (zMatDecompLQDST tol sqrt rows cols m q)

/-- `zMatDecompQR`, zm_le_lq.c:164-184: `q`, `r` and the rank. -/
def zMatDecompQR (tol : K) (sqrt : K → K) (rows cols : Nat) (m : Nat → Nat → K) (rnull : Bool) : Res ((Nat → Nat → K) × (Nat → Nat → K) × Nat) :=
  if rnull then .ub
  else
    let st := zMatDecompLQDST tol sqrt cols rows (fun i j => m j i) (fun _ _ => 0)
    .ok (fun i j => st.q j i, fun i j => st.l j i, st.rank)

/-- `_zLESolveMP_L`, zm_le_gen.c:252-258: the permutation of `zIndexCreate` is not changed by the LQ decomposition; when the solver of the normal equation fails, its answer keeps the
zeros of the allocation (the permutation it leaves behind in that case is not modelled). -/
def solveMP_L (tol : K) (rows rank : Nat) (l : Nat → Nat → K) (b : Nat → K) (we : Option (Nat → K)) : (Nat → K) × (Nat → Nat) :=
  if rows = rank then (zLESolveL rank l b (fun _ => 0) (fun i => i), fun i => i)
  else match zLESolveErrorMinDST tol rows rank (fun i => i) l b we (fun _ => 0) with
    | .ok r => r
    | _ => (fun _ => 0, fun i => i)

/-- `zLESolveMP_LQ_DST`, zm_le_gen.c:261-268; when the solver fails, `ans` is left as it is. -/
def solveMP_R (tol : K) (cols rank : Nat) (q : Nat → Nat → K) (v : Nat → K) (idx : Nat → Nat) (wn : Option (Nat → K)) (ans : Nat → K) : Nat → K :=
  if rank = cols then mulTVec rank cols q v ans
  else match zLESolveNormMinDST tol rank cols idx q v wn ans with
    | .ok r => r.1
    | _ => ans

/-- `zLESolveMP_LQ`, zm_le_gen.c:299-312, which is `zLESolveMP`; `ltol` is ZM_LQ_DECOMP_GRAMSCHMIDT_TOL. -/
def zLESolveMP (tol ltol : K) (sqrt : K → K) (rows cols : Nat) (a : Nat → Nat → K) (b : Nat → K) (wn we : Option (Nat → K)) (ans : Nat → K) : Nat → K :=
  let st := zMatDecompLQDST ltol sqrt rows cols a (fun _ _ => 0)
  if st.rank > 0 then
    let v := solveMP_L tol rows st.rank st.l b we
    solveMP_R tol cols st.rank st.q v.1 v.2 wn ans
  else ans

/-- `zLESolveMPAux`, zm_le_gen.c:377-389. -/
def zLESolveMPAux (tol ltol : K) (sqrt : K → K) (rows cols : Nat) (a : Nat → Nat → K) (b : Nat → K) (wn we : Option (Nat → K)) (ans aux : Nat → K) : Nat → K :=
  addTo cols (zLESolveMP tol ltol sqrt rows cols a (zLEResidual rows cols a b aux) wn we ans) aux

/-- The matrix of `zLESolveMPNull`, zm_le_gen.c:286-294. -/
def mpNull (ltol : K) (sqrt : K → K) (rows cols : Nat) (a : Nat → Nat → K) (mn : Nat → Nat → K) : Nat → Nat → K :=
  let st := zMatDecompLQDST ltol sqrt rows cols a (fun _ _ => 0)
  if st.rank > 0 then
    if st.rank = cols then fun _ _ => 0
    else forUp 0 cols (fun i m => set2 m i i (m i i - 1)) (fun i j => inner st.rank (fun k => st.q k i) (fun k => st.q k j))
  else mn

/-! ## Householder's method -/

/-- Sign, zm_misc.h:102. -/
def zSgn (x : K) : K := if x ≥ 0 then 1 else -1

/-- The reflection of a row, zm_le_lq.c:67-68: from the column `i` on. -/
def hhRow (cols i : Nat) (ninv : K) (u : Nat → K) (j : Nat) (m : Nat → Nat → K) : Nat → Nat → K :=
  let refl := -ninv * forUp i cols (fun k x => x + m j k * u k) 0
  forUp i cols (fun k m => set2 m j k (m j k + u k * refl)) m

/-- The reflection of a column, zm_le_lq.c:63-64: from the row `i` on. -/
def hhCol (cols i : Nat) (ninv : K) (u : Nat → K) (j : Nat) (q : Nat → Nat → K) : Nat → Nat → K :=
  let refl := -ninv * forUp i cols (fun k x => x + q k j * u k) 0
  forUp i cols (fun k q => set2 q k j (q k j + u k * refl)) q

/-- One turn, zm_le_lq.c:56-72, on the matrix, the orthogonal matrix and the rank. -/
def hhStep (tol : K) (sqrt : K → K) (rows cols i : Nat) (st : (Nat → Nat → K) × (Nat → Nat → K) × Nat) : (Nat → Nat → K) × (Nat → Nat → K) × Nat :=
  let (m, q, rank) := st
  let s := -zSgn (m i i) * sqrt (forUp i cols (fun k x => x + m i k * m i k) 0)
  let ds := s - m i i
  if |s| ≤ tol ∨ |ds| ≤ tol then st
  else
    let ninv := 1 / (s * ds)
    let m := set2 m i i (-ds)
    let q := forUp 0 cols (hhCol cols i ninv (m i)) q
    let m := forDown (i+1) rows (hhRow cols i ninv (m i)) m
    let m := set2 m i i s
    let m := forUp (i+1) cols (fun k m => set2 m i k 0) m
    (m, q, rank + 1)

/-- `_zMatDecompLQ_Householder_DST`, zm_le_lq.c:47-75. -/
def householderDST (tol : K) (sqrt : K → K) (rows cols : Nat) (m : Nat → Nat → K) : (Nat → Nat → K) × (Nat → Nat → K) × Nat :=
  forUp 0 (min rows cols) (hhStep tol sqrt rows cols) (m, fun i j => if i = j then 1 else 0, 0)

/-- `zMatDecompLQ_Householder` and `_zMatDecompLQRank_Householder`, zm_le_lq.c:78-114: the first columns of `l`, the first rows of `q` (zero beyond) and the rank; `fail` for a zero
matrix. -/
def zMatDecompLQ_Householder (tol : K) (sqrt : K → K) (rows cols : Nat) (m : Nat → Nat → K) : Res ((Nat → Nat → K) × (Nat → Nat → K) × Nat) :=
  let (l, q, rank) := householderDST tol sqrt rows cols m
  if rank = 0 then .fail
  else .ok (fun i j => if j < rank then l i j else 0, fun i j => if i < rank then q i j else 0, rank)

/-- `zMatDecompLQNull`, zm_le_lq.c:117-135: also the transpose of the other rows of `q`. -/
def zMatDecompLQNull (tol : K) (sqrt : K → K) (rows cols : Nat) (m : Nat → Nat → K) : Res ((Nat → Nat → K) × (Nat → Nat → K) × (Nat → Nat → K) × Nat) :=
  let (l, q, rank) := householderDST tol sqrt rows cols m
  if rank = 0 then .fail
  else .ok (fun i j => if j < rank then l i j else 0, fun i j => if i < rank then q i j else 0, fun i j => q (rank + j) i, rank)

end Zm.LE
