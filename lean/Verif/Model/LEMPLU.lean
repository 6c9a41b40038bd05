import Verif.Model.LEGen
import Verif.Model.LEMore

/-!
# Balancing (zm_le.c) and the generalised solver on the LU decomposition (zm_le_gen.c)

Matrices are functions as in `Model/LE.lean`; sizes are given where the code compares them.
-/

namespace Zm.LE
open Zm Misc
variable {K : Type*} [Field K] [LinearOrder K]

/-- `_zLESolveMP_L`, zm_le_gen.c:252-258, after a LU decomposition with the permutation `idx`: the solver of the normal equation has a permutation of its own (`index_le`, in the order of
`zIndexCreate`).  When it fails, its answer keeps the zeros of the allocation. -/
def solveMP_LI (tol : K) (rows rank : Nat) (idx : Nat → Nat) (l : Nat → Nat → K) (b : Nat → K) (we : Option (Nat → K)) : (Nat → K) × (Nat → Nat) :=
  if rows = rank then (zLESolveL rank l b (fun _ => 0) idx, fun i => i)
  else match zLESolveErrorMinDST tol rows rank (fun i => i) l b we (fun _ => 0) with
    | .ok r => r
    | _ => (fun _ => 0, fun i => i)

/-- `zLESolveMP_LU_DST`, zm_le_gen.c:271-278; when the solver fails, `ans` is left as it is. -/
def solveMP_U (tol : K) (cols rank : Nat) (u : Nat → Nat → K) (v : Nat → K) (idx : Nat → Nat) (wn : Option (Nat → K)) (ans : Nat → K) : Nat → K :=
  if rank = cols then zLESolveU rank u v ans
  else match zLESolveNormMinDST tol rank cols idx u v wn ans with
    | .ok r => r.1
    | _ => ans

/-- `zLESolveMP_LU`, zm_le_gen.c:315-328; `tol` is zTOL, which both the decomposition and the solvers use. -/
def zLESolveMP_LU (tol : K) (rows cols : Nat) (a : Nat → Nat → K) (b : Nat → K) (wn we : Option (Nat → K)) (ans : Nat → K) : Res (Nat → K) :=
  match zMatDecompLU tol rows cols a with
  | .ok st =>
    if st.r > 0 then
      let v := solveMP_LI tol rows st.r st.idx st.l b we
      .ok (solveMP_U tol cols st.r st.u v.1 v.2 wn ans)
    else .ok ans
  | .fail => .fail
  | .ub => .ub

/-- `zMatDecompLUAndResize`, zm_le_lu.c:67-77: the decomposition, the number of columns left of `l` and the number of rows left of `u`.  `zMatColResize` and `zMatRowResize` set the sizes
and leave the elements where they are. -/
def zMatDecompLUAndResize (tol : K) (rows cols : Nat) (m : Nat → Nat → K) : Res (LUS K × Nat × Nat) :=
  (zMatDecompLU tol rows cols m).bind fun st => .ok (st, if st.r < rows then (st.r, st.r) else (rows, rows))

/-- `zMatDecompLQAndResize`, zm_le_lq.c:137-147, in the same way. -/
def zMatDecompLQAndResize (ltol : K) (sqrt : K → K) (rows cols : Nat) (m q : Nat → Nat → K) : Res (LQS K × Nat × Nat) :=
  (zMatDecompLQ ltol sqrt rows cols m q false).bind fun st => .ok (st, if st.rank < rows then (st.rank, st.rank) else (rows, rows))

/-- `zMatDecompCholeskyAndResize`, zm_le_lu.c:151-159: the factor, the permutation, the rank and the number of columns left. -/
def zMatDecompCholeskyAndResize (tol : K) (sqrt : K → K) (n : Nat) (m : Nat → Nat → K) : Res ((Nat → Nat → K) × (Nat → Nat) × Nat × Nat) :=
  (zMatDecompCholesky tol sqrt n m).bind fun r => .ok (r.1, r.2.1, r.2.2, if r.2.2 < n then r.2.2 else n)

/-- The sizes which `zMatVecBalancing` compares: of `morg`, of `m`, of `vorg`, of `v` and of `s`. -/
structure BalSizes where
  rows0 : Nat
  cols0 : Nat
  rows : Nat
  cols : Nat
  vorg : Nat
  v : Nat
  s : Option Nat

/-- `zMatVecBalancing`, zm_le.c:50-71: the matrix, the vector and the factors.  The factors of the columns are written to `s`, which was compared with the vector on the right: more columns
than elements of `s` are written outside of it, and with a column but no row the element (0, i) of the matrix is read outside. -/
def zMatVecBalancing (z : BalSizes) (morg : Nat → Nat → K) (vorg s : Nat → K) : Res ((Nat → Nat → K) × (Nat → K) × (Nat → K)) :=
  if ¬ (z.rows0 = z.rows ∧ z.cols0 = z.cols) then .fail
  else if z.vorg ≠ z.v then .fail
  else match z.s with
    | some n =>
      if z.vorg ≠ n then .fail
      else if z.rows ≠ z.v then .fail
      else if n < z.cols then .ub
      else if z.rows = 0 ∧ 0 < z.cols then .ub
      else
        let c := zMatColBalancingDST z.rows z.cols morg s
        let r := rowBalancingDST z.rows z.cols c.1 vorg
        .ok (r.1, r.2, c.2)
    | none =>
      if z.rows ≠ z.v then .fail
      else
        let r := rowBalancingDST z.rows z.cols morg vorg
        .ok (r.1, r.2, s)

end Zm.LE
