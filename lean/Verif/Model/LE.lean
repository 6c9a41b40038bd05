import Verif.Base.Fn
import Verif.Model.Misc
import Mathlib.Algebra.Order.Field.Basic
import Mathlib.Algebra.Module.Pi
import Mathlib.Algebra.Module.Prod

/-!
# Model of the linear-equation modules
`src/zm_le.c`, `src/zm_le_pivot.c`, `src/zm_le_lu.c`, `src/zm_le_mat_inv.c`, `src/zm_le_tridiag.c`

Matrices are `Nat → Nat → K`, vectors `Nat → K`, permutations `Nat → Nat`; `tol` is `zTOL`.
The right-hand side of the eliminations is a vector (`zLESolveGaussDST`), a matrix (`_zMulInvMat`) or both
(`zMulInvMatMatAndVecDST`); the three C functions run the same statements on each right-hand column, so the model has
one right-hand *row* of type `V` per equation, where `V` is `K`, `Fin w → K` or `(Fin w → K) × K`.
-/

namespace Zm.LE
open Zm Misc
variable {K : Type*} [Field K] [LinearOrder K] {V : Type*} [AddCommGroup V] [Module K V]

/-- `zMatPivoting`, zm_le_pivot.c:10-26: the permutation after the call (the return value is its entry `r`). -/
def zMatPivoting (n : Nat) (m : Nat → Nat → K) (idx : Nat → Nat) (r c : Nat) : Nat → Nat :=
  let s := forUp (r+1) n (fun i (s : Nat × K) =>
    let tmp := |m (idx i) c|
    if tmp > s.2 then (i, tmp) else s) (r, |m (idx r) c|)
  swap1 idx s.1 r

/-- `zMatPivotingDiag`, zm_le_pivot.c:29-45. -/
def zMatPivotingDiag (n : Nat) (m : Nat → Nat → K) (idx : Nat → Nat) (i : Nat) : Nat → Nat :=
  let s := forUp (i+1) n (fun j (s : Nat × K) =>
    let tmp := |m (idx j) (idx j)|
    if tmp > s.2 then (j, tmp) else s) (i, |m (idx i) (idx i)|)
  swap1 idx s.1 i

/-- `zMatColBalancingDST`, zm_le.c:10-27; `rows`, `cols` are the sizes of `m`. -/
def zMatColBalancingDST (rows cols : Nat) (m : Nat → Nat → K) (s : Nat → K) : (Nat → Nat → K) × (Nat → K) :=
  forUp 0 cols (fun i (st : (Nat → Nat → K) × (Nat → K)) =>
    let s := set1 st.2 i |st.1 0 i|
    let s := forUp 1 rows (fun j s => if |st.1 j i| > s i then set1 s i |st.1 j i| else s) s
    if s i = 0 then (st.1, s)
    else
      let s := set1 s i (1 / s i)
      (forUp 0 rows (fun j m => set2 m j i (m j i * s i)) st.1, s)) (m, s)

/-- `zDataAbsMax( mp, size, NULL )` on a row (zm_data.c; the model of the search itself is in `Model/Data.lean`). -/
def absMax (size : Nat) (row : Nat → K) : K :=
  forUp 1 size (fun j x => if |row j| > x then |row j| else x) |row 0|

/-- `zMatVecRowBalancingDST`, `zMatMatRowBalancingDST`, `zMatMatVecRowBalancingDST`, zm_le.c:30-41, 74-85, 96-108. -/
def rowBalancingDST (rows cols : Nat) (m : Nat → Nat → K) (b : Nat → V) : (Nat → Nat → K) × (Nat → V) :=
  forUp 0 rows (fun i (st : (Nat → Nat → K) × (Nat → V)) =>
    let tmp := absMax cols (st.1 i)
    if tmp = 0 then st
    else (forUp 0 cols (fun j m => set2 m i j (m i j / tmp)) st.1, set1 st.2 i (tmp⁻¹ • st.2 i))) (m, b)

/-- State of the elimination: matrix, right-hand rows, permutation. -/
structure GS (K V : Type*) where
  a : Nat → Nat → K
  b : Nat → V
  idx : Nat → Nat

/-- Elimination of one row `q = idx[j]`, zm_le.c:147-153 (zm_le_mat_inv.c:121-128 and 267-275). -/
def elimRow (tol : K) (n i p : Nat) (j : Nat) (st : GS K V) : GS K V :=
  let q := st.idx j
  let ahead := st.a q i
  let st := if !zIsTol ahead tol then
      { st with a := forUp (i+1) n (fun k a => set2 a q k (a q k - a p k * ahead)) st.a,
                b := set1 st.b q (st.b q - ahead • st.b p) }
    else st
  { st with a := set2 st.a q i 0 }

/-- One step of the forward elimination, zm_le.c:135-155 (zm_le_mat_inv.c:108-130 and 253-277); `fail`: zero pivot. -/
def forwardStep (tol : K) (n i : Nat) (st : GS K V) : Res (GS K V) :=
  let st := { st with idx := zMatPivoting n st.a st.idx i i }
  let p := st.idx i
  let ahead := st.a p i
  if ahead = 0 then .fail
  else
    let ahead := 1 / ahead
    let a := set2 st.a p i 1
    let a := forUp (i+1) n (fun j a => set2 a p j (a p j * ahead)) a
    let b := set1 st.b p (ahead • st.b p)
    .ok (forUp (i+1) n (elimRow tol n i p) { st with a := a, b := b })

/-- Backward substitution, zm_le.c:157-162 (zm_le_mat_inv.c:132-140 and 279-291). -/
def backward (n : Nat) (st : GS K V) (ans : Nat → V) : Nat → V :=
  forDown 0 n (fun i ans =>
    let p := st.idx i
    set1 ans i (forDown (i+1) n (fun j x => x - st.a p j • ans j) (st.b p))) ans

/-- `zLESolveGaussDST` (zm_le.c:126-165), `_zMulInvMat` (zm_le_mat_inv.c:98-145) and `zMulInvMatMatAndVecDST`
(243-298) with a balancing vector `s`, starting from the permutation `idx`: the answer and the permutation left behind. -/
def gaussSolveIdx (tol : K) (n : Nat) (idx : Nat → Nat) (a : Nat → Nat → K) (b : Nat → V) (ans : Nat → V) : Res ((Nat → V) × (Nat → Nat)) :=
  let (a, s) := zMatColBalancingDST n n a (fun _ => 0)
  let (a, b) := rowBalancingDST n n a b
  (forUpM 0 n (forwardStep tol n) { a := a, b := b, idx := idx }).bind fun st =>
  let ans := backward n st ans
  .ok (forUp 0 n (fun i ans => set1 ans i (s i • ans i)) ans, st.idx)

/-- The same starting from the identity permutation (`zIndexCreate`), as all callers but those that keep a workspace do. -/
def gaussSolve (tol : K) (n : Nat) (a : Nat → Nat → K) (b : Nat → V) (ans : Nat → V) : Res (Nat → V) :=
  (gaussSolveIdx tol n (fun i => i) a b ans).bind fun r => .ok r.1

/-- `zLESolveGauss`, zm_le.c:168-195 (sizes agree; allocation succeeds). -/
def zLESolveGauss (tol : K) (n : Nat) (a : Nat → Nat → K) (b ans : Nat → K) : Res (Nat → K) := gaussSolve tol n a b ans

/-- `zMulInvMatMat`, zm_le_mat_inv.c:148-182 (`m1` is `n × n`, `m2` and `m` are `n × w`). -/
def zMulInvMatMat (tol : K) (n w : Nat) (m1 m2 m : Nat → Nat → K) : Res (Nat → Fin w → K) :=
  gaussSolve tol n m1 (fun i (j : Fin w) => m2 i j) (fun i (j : Fin w) => m i j)

/-- `zMulInvMatMatAndVec`, zm_le_mat_inv.c:301-339. -/
def zMulInvMatMatAndVec (tol : K) (n w : Nat) (m1 m2 : Nat → Nat → K) (v : Nat → K) (mat_ans : Nat → Fin w → K)
    (vec_ans : Nat → K) : Res (Nat → (Fin w → K) × K) :=
  gaussSolve tol n m1 (fun i => ((fun j : Fin w => m2 i j), v i)) (fun i => (mat_ans i, vec_ans i))

/-- `zMatInv`, zm_le_mat_inv.c:223-240.  The result of the elimination is not examined: on failure the identity that
was stored in `im` beforehand is what the caller gets.  In the scalar case the reciprocal is taken without a test; a
zero divisor (an IEEE infinity in C) is rendered as `ub`. -/
def zMatInv (tol : K) (n : Nat) (m : Nat → Nat → K) : Res (Nat → Fin n → K) :=
  if n = 1 then (if m 0 0 = 0 then .ub else .ok fun _ _ => 1 / m 0 0)
  else
    let im : Nat → Nat → K := fun i j => if i = j then 1 else 0
    match zMulInvMatMat tol n n m im im with
    | .ok x => .ok x
    | .fail => .ok fun i j => im i j
    | .ub => .ub

/-- `zLESolveL`, zm_le.c:198-210. -/
def zLESolveL (n : Nat) (l : Nat → Nat → K) (b ans : Nat → K) (idx : Nat → Nat) : Nat → K :=
  forUp 0 n (fun i ans =>
    let p := idx i
    set1 ans i (forUp 0 i (fun j x => x - l p j * ans j) (b p) / l p i)) ans

/-- `zLESolveU`, zm_le.c:213-225. -/
def zLESolveU (n : Nat) (u : Nat → Nat → K) (b ans : Nat → K) : Nat → K :=
  forDown 0 n (fun i ans => set1 ans i (forDown (i+1) n (fun j x => x - u i j * ans j) (b i))) ans

/-- `zLESolveLU`, zm_le.c:228-248 (sizes agree). -/
def zLESolveLU (n : Nat) (l u : Nat → Nat → K) (b ans : Nat → K) (idx : Nat → Nat) : Nat → K :=
  zLESolveU n u (zLESolveL n l b (fun _ => 0) idx) ans

/-- `zMatDetDST`, zm_le_mat_inv.c:10-31.  The early `return 0` is modelled by `Sum.inr`-style state: `none` means that
the function has returned 0. -/
def detStep (tol : K) (n i : Nat) (st : Option (K × (Nat → Nat → K) × (Nat → Nat))) :
    Option (K × (Nat → Nat → K) × (Nat → Nat)) :=
  st.bind fun (det, m, idx) =>
    let p := idx i
    let idx := zMatPivoting n m idx i i
    let det := if p ≠ idx i then -det else det
    let p := idx i
    let det := det * m p i
    if zIsTol det tol then none
    else
      let m := forUp (i+1) n (fun j m =>
        let q := idx j
        forUp (i+1) n (fun k m => set2 m q k (m q k - m p k / m p i * m q i)) m) m
      some (det, m, idx)

/-- `zMatDet`, zm_le_mat_inv.c:34-52 (square matrix). -/
def zMatDet (tol : K) (n : Nat) (m : Nat → Nat → K) : K :=
  match forUp 0 n (detStep tol n) (some (1, m, fun i => i)) with
  | some (det, _, _) => det
  | none => 0

/-- The sub-matrix of `zMatAdj`, zm_le_mat_inv.c:78-86: row `i` and column `j` removed. -/
def adjSub (n : Nat) (m : Nat → Nat → K) (i j : Nat) : Nat → Nat → K :=
  (forUp 0 n (fun k (st : Nat × (Nat → Nat → K)) =>
    if k = i then st else
    (st.1 + 1, (forUp 0 n (fun l (tv : Nat × (Nat → Nat → K)) =>
      if l = j then tv else (tv.1 + 1, set2 tv.2 st.1 tv.1 (m k l))) (0, st.2)).2)) (0, fun _ _ => 0)).2

/-- `zMatAdj`, zm_le_mat_inv.c:55-95, for `n ≥ 2` (the scratch matrix is fully overwritten for every `i,j`, so it is
modelled as fresh). -/
def zMatAdj (tol : K) (n : Nat) (m adj : Nat → Nat → K) : Nat → Nat → K :=
  forUp 0 n (fun i adj => forUp 0 n (fun j adj =>
    set2 adj j i (if (i+j) % 2 ≠ 0 then - zMatDet tol (n-1) (adjSub n m i j) else zMatDet tol (n-1) (adjSub n m i j))) adj) adj

/-- State of the LU decomposition. -/
structure LUS (K : Type*) where
  m : Nat → Nat → K
  l : Nat → Nat → K
  u : Nat → Nat → K
  idx : Nat → Nat
  r : Nat

/-- Body of the loop over `c` in `zMatDecompLUDST`, zm_le_lu.c:17-34; the loop condition `r < rows` is tested here.
`l` is `rows × rows`: a write to a column `c ≥ rows` of it is out of bounds (`ub`). -/
def luStep (tol : K) (rows cols c : Nat) (st : LUS K) : Res (LUS K) :=
  if ¬ st.r < rows then .ok st
  else
    let r := st.r
    let idx := zMatPivoting rows st.m st.idx r c
    let p := idx r
    let ahead := st.m p c
    if zIsTol ahead tol then .ok { st with idx := idx }
    else if rows ≤ c ∧ r + 1 < rows then .ub
    else
      let l := set2 st.l p r ahead
      let u := set2 st.u r c 1
      let l := forUp (r+1) rows (fun i l => set2 l (idx i) c (st.m (idx i) c)) l
      let u := forUp (c+1) cols (fun i u => set2 u r i (st.m p i / ahead)) u
      let m := forUp (c+1) cols (fun j m => forUp (r+1) rows (fun i m =>
        set2 m (idx i) j (m (idx i) j - l (idx i) c * u r j)) m) st.m
      .ok { m := m, l := l, u := u, idx := idx, r := r + 1 }

/-- `zMatDecompLU`, zm_le_lu.c:10-62 (sizes agree): `L`, `U`, permutation and rank. -/
def zMatDecompLU (tol : K) (rows cols : Nat) (m : Nat → Nat → K) : Res (LUS K) :=
  forUpM 0 cols (luStep tol rows cols) { m := m, l := fun _ _ => 0, u := fun _ _ => 0, idx := fun i => i, r := 0 }

/-- Forward sweep of `zLETridiagSolveDST`, zm_le_tridiag.c:16-24. -/
def tridiagForward (n : Nat) (c : Nat → K) (a b d : Nat → K) : Res ((Nat → K) × (Nat → K) × (Nat → K)) :=
  forUpM 1 n (fun i (st : (Nat → K) × (Nat → K) × (Nat → K)) =>
    let (a, b, d) := st
    if b (i-1) = 0 then .fail
    else
      let b := set1 b i (b i - c (i-1) / b (i-1) * a i)
      let d := set1 d i (d i - d (i-1) / b (i-1) * a i)
      .ok (set1 a i 0, b, d)) (a, b, d)

/-- `zLETridiagSolveDST`, zm_le_tridiag.c:10-30.  For `n = 0` element `-1` is accessed (`ub`); the last pivot is
divided by without a test (a zero divisor, an IEEE infinity or NaN in C, is rendered as `ub`). -/
def zLETridiagSolveDST (n : Nat) (a b c d ans : Nat → K) : Res (Nat → K) :=
  if n = 0 then .ub
  else (tridiagForward n c a b d).bind fun (_, b, d) =>
    if b (n-1) = 0 then .ub
    else
      let ans := set1 ans (n-1) (d (n-1) / b (n-1))
      .ok (forDown 0 (n-1) (fun i ans => set1 ans i ((d i - c i * ans (i+1)) / b i)) ans)

/-- `zMatVecSweepOut` and `zMatMatSweepOut`, zm_le_pivot.c:48-107, with right-hand rows in `V`; the second component
is the returned pivot value. -/
def sweepOut (tol : K) (rows cols : Nat) (m : Nat → Nat → K) (v : Nat → V) (r c : Nat) :
    ((Nat → Nat → K) × (Nat → V)) × K :=
  let value := m r c
  if value = 0 then ((m, v), 0)
  else
    let d := 1 / value
    let m := forUp 0 cols (fun j m => if j ≠ c then set2 m r j (m r j * d) else set2 m r c 1) m
    let v := set1 v r (d • v r)
    (forUp 0 rows (fun i (st : (Nat → Nat → K) × (Nat → V)) =>
      if i = r then st
      else
        let ratio := st.1 i c
        let st := if !zIsTol ratio tol then
            (forUp 0 cols (fun j m => if j ≠ c then set2 m i j (m i j - m r j * ratio) else m) st.1,
             set1 st.2 i (st.2 i - ratio • st.2 r))
          else st
        (set2 st.1 i c 0, st.2)) (m, v), value)

end Zm.LE
