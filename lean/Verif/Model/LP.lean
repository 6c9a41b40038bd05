import Verif.Base.Fn
import Mathlib.Algebra.Order.Field.Basic

/-!
# Model of linear programming: zm_opt_lp_simplex.c and zm_opt_lp_stdcnv.c

`double` is an ordered field `K`.  The three comparisons with the tolerance are parameters: `Tst.code tol` are the comparisons the code makes with
`zTOL = tol`, `Tst.exact` the comparisons with zero they stand for ("a should be compared with 0 in theory", zm_opt_lp_simplex.c:128).

The indices `ib` and `ir` are functions with the common size `r`, the index `in` is a list `nb`.  The matrix, the vectors and the indices are
those of a tableau whose allocations succeeded; the checks of sizes at the beginning of the API functions are assumed to have passed.
-/

namespace Zm.LP
open Zm
variable {K : Type*} [Field K] [LinearOrder K] [IsStrictOrderedRing K]

/-- The comparisons of zm_opt_lp_simplex.c: `skip` line 129, `neg` lines 101 and 110, `tiny` lines 132, 218, 273. -/
structure Tst (K : Type*) where
  skip : K → Bool
  neg : K → Bool
  tiny : K → Bool

/-- The comparisons as written, with `zTOL = tol`. -/
def Tst.code (tol : K) : Tst K := ⟨fun a => decide (a < tol), fun c => decide (c < -tol), fun x => decide (|x| ≤ tol)⟩

/-- The comparisons with zero. -/
def Tst.exact : Tst K := ⟨fun a => decide (a ≤ 0), fun c => decide (c < 0), fun x => decide (x = 0)⟩

/-- `zLPTableau`, zm_opt_lp.h. -/
structure Tab (K : Type*) where
  a : Nat → Nat → K
  b : Nat → K
  c : Nat → K
  d : K
  /-- size of `ib` and `ir` -/
  r : Nat
  ib : Nat → Nat
  nb : List Nat
  ir : Nat → Nat

/-- `zLPTableauCreate`, zm_opt_lp_simplex.c:26-55, for an `m`×`n` matrix.  The loops write every element once; the closed form of what they write. -/
def zLPTableauCreate (m n : Nat) (A : Nat → Nat → K) (b : Nat → K) : Tab K where
  a := fun i j => if j < n then (if b i ≥ 0 then A i j else - A i j) else if j = n + i then 1 else 0
  b := fun i => if b i ≥ 0 then b i else - b i
  c := fun j => if n ≤ j ∧ j < n + m then 1 else 0
  d := 0
  r := m
  ib := fun i => n + i
  nb := List.range n
  ir := fun i => i

/-- `_zLPTableauSweepC1`, zm_opt_lp_simplex.c:69-80. -/
def sweepC1 (t : Tab K) (p : Nat) : Tab K :=
  let cp := t.c (t.ib p)
  let c := t.nb.foldl (fun c v => set1 c v (c v - t.a (t.ir p) v * cp)) t.c
  { t with d := t.d + t.b (t.ir p) * cp, c := set1 c (t.ib p) 0 }

/-- `_zLPTableauSweepC`, zm_opt_lp_simplex.c:83-89. -/
def sweepC (t : Tab K) : Tab K := forUp 0 t.r (fun i t => sweepC1 t i) t

/-- The loop of `_zLPTableauFindNA`, zm_opt_lp_simplex.c:98-100: the rest of `in`, the counter, the least value so far and its place. -/
def naScan (c : Nat → K) : List Nat → Nat → Nat × K → Nat × K
  | [], _, best => best
  | v :: l, i, best => naScan c l (i + 1) (if c v < best.2 then (i, c v) else best)

/-- `_zLPTableauFindNA`, zm_opt_lp_simplex.c:92-102.  The element number 0 of `in` is read without a look at the size of `in`: undefined if `in`
is empty.  `none` is the return value -1. -/
def findNA (tst : Tst K) (t : Tab K) : Res (Option Nat) :=
  match t.nb with
  | [] => .ub
  | v :: l =>
    let best := naScan t.c l 1 (0, t.c v)
    .ok (if tst.neg best.2 then some best.1 else none)

/-- The loop of `_zLPTableauFindNA_deg`, zm_opt_lp_simplex.c:109-115: `(na, idx_min)`. -/
def degScan (tst : Tst K) (c : Nat → K) : List Nat → Nat → Option (Nat × Nat) → Option (Nat × Nat)
  | [], _, best => best
  | v :: l, i, best => degScan tst c l (i + 1) (if tst.neg (c v) then degStep v i best else best)
where
  /-- zm_opt_lp_simplex.c:111-114 -/
  degStep (v i : Nat) : Option (Nat × Nat) → Option (Nat × Nat)
    | none => some (i, v)
    | some (na, idx) => if v < idx then some (i, v) else some (na, idx)

/-- `_zLPTableauFindNA_deg`, zm_opt_lp_simplex.c:105-117. -/
def findNAdeg (tst : Tst K) (t : Tab K) : Option Nat := (degScan tst t.c t.nb 0 none).map Prod.fst

/-- zm_opt_lp_simplex.c:137-140; `none` is `p_min = HUGE_VAL`, `np = -1`. -/
def npStep (p : K) (i : Nat) : Option (K × Nat) → Option (K × Nat)
  | none => some (p, i)
  | some (pm, j) => if p < pm then some (p, i) else some (pm, j)

/-- The loop of `_zLPTableauFindNP`, zm_opt_lp_simplex.c:127-141, for the column `v`: the number of rows left, the counter and the best so far.
`none` is the jump to RETRY.  (`a` is not zero where it is a divisor, for a positive tolerance and for the exact comparisons.) -/
def npScan (tst : Tst K) (t : Tab K) (v : Nat) (ftry : Bool) : Nat → Nat → Option (K × Nat) → Option (Option Nat)
  | 0, _, best => some (best.map Prod.snd)
  | k+1, i, best =>
    let a := t.a (t.ir i) v
    if tst.skip a then npScan tst t v ftry k (i + 1) best
    else
      let p := t.b (t.ir i) / a
      if tst.tiny p && ftry then none
      else npScan tst t v ftry k (i + 1) (npStep p i best)

/-- `_zLPTableauFindNP`, zm_opt_lp_simplex.c:120-143: the pivot (`none` is -1) and the possibly changed axis. -/
def findNP (tst : Tst K) (t : Tab K) (na : Nat) : Option Nat × Nat :=
  match npScan tst t (t.nb.getD na 0) true t.r 0 none with
  | some np => (np, na)
  | none =>
    match findNAdeg tst t with
    | none => (none, na)
    | some na' =>
      match npScan tst t (t.nb.getD na' 0) false t.r 0 none with
      | some np => (np, na')
      | none => (none, na')

/-- `for( j=0; j<size(in); j++ ) a[R][in[j]] /= ap;`, zm_opt_lp_simplex.c:153-154. -/
def divRow (nb : List Nat) (R : Nat) (ap : K) (a : Nat → Nat → K) : Nat → Nat → K :=
  nb.foldl (fun a v => set2 a R v (a R v / ap)) a

/-- `for( j=0; j<size(in); j++ ) a[q][in[j]] -= a[R][in[j]] * ap;`, zm_opt_lp_simplex.c:162-164. -/
def subRow (nb : List Nat) (R q : Nat) (ap : K) (a : Nat → Nat → K) : Nat → Nat → K :=
  nb.foldl (fun a v => set2 a q v (a q v - a R v * ap)) a

/-- The body of the loop over the other rows, zm_opt_lp_simplex.c:159-167. -/
def sweepRow (t : Tab K) (np C : Nat) (i : Nat) (s : (Nat → Nat → K) × (Nat → K)) : (Nat → Nat → K) × (Nat → K) :=
  if i = np then s
  else
    let q := t.ir i
    let R := t.ir np
    let ap := s.1 q C
    let a := subRow t.nb R q ap s.1
    let a := set2 a q (t.ib np) (a q (t.ib np) - a R (t.ib np) * ap)
    (a, set1 s.2 q (s.2 q - s.2 R * ap))

/-- `_zLPTableauSweepA`, zm_opt_lp_simplex.c:146-169; undefined for a zero pivot. -/
def sweepA (t : Tab K) (np na : Nat) : Res (Tab K) :=
  let R := t.ir np
  let C := t.nb.getD na 0
  let ap := t.a R C
  if ap = 0 then .ub
  else
    let a := divRow t.nb R ap t.a
    let a := set2 a R (t.ib np) (a R (t.ib np) / ap)
    let b := set1 t.b R (t.b R / ap)
    let s := forUp 0 t.r (sweepRow t np C) (a, b)
    .ok { t with a := s.1, b := s.2 }

/-- `_zLPTableauSwapPivot`, zm_opt_lp_simplex.c:172-179. -/
def swapPivot (t : Tab K) (np na : Nat) : Tab K :=
  { t with nb := t.nb.set na (t.ib np), ib := set1 t.ib np (t.nb.getD na 0) }

/-- `zLPTableauSimplex` after the first sweep, zm_opt_lp_simplex.c:196-205; the first argument is the number of pivots that are still allowed. -/
def simplexLoop (tst : Tst K) : Nat → Tab K → Res (Tab K)
  | 0, t =>
    match findNA tst t with
    | .ub => .ub
    | .fail => .fail
    | .ok none => .ok t
    | .ok (some _) => .fail
  | k+1, t =>
    match findNA tst t with
    | .ub => .ub
    | .fail => .fail
    | .ok none => .ok t
    | .ok (some na) =>
      match findNP tst t na with
      | (none, _) => .fail
      | (some np, na) =>
        match sweepA t np na with
        | .ok t => simplexLoop tst k (sweepC1 (swapPivot t np na) np)
        | .fail => .fail
        | .ub => .ub

/-- `zLPTableauSimplex`, zm_opt_lp_simplex.c:191-206; `N` is the number of columns.  The counter passes the test of line 197 for the values 0..N. -/
def zLPTableauSimplex (tst : Tst K) (N : Nat) (t : Tab K) : Res (Tab K) := simplexLoop tst (N + 1) (sweepC t)

/-- `zIndexRemove` of ZEDA on an index given as a function: the later elements move up by one. -/
def removeAt (f : Nat → Nat) (i : Nat) : Nat → Nat := fun k => if k < i then f k else f (k + 1)

/-- The first loop of `zLPTableauFindBase`, zm_opt_lp_simplex.c:215-228.  Line 218 looks at the row `i` of the matrix, not at the row `ir[i]`.  The
first argument bounds the number of turns; every turn either advances `i` or makes `ib` shorter. -/
def findBaseLoop (tst : Tst K) (n : Nat) : Nat → Nat → Tab K → Res (Tab K)
  | 0, _, t => .ok t
  | k+1, i, t =>
    if t.r ≤ i then .ok t
    else if t.ib i < n then findBaseLoop tst n k (i + 1) t
    else
      match t.nb.findIdx? (fun v => decide (v < n) && !tst.tiny (t.a i v)) with
      | some j =>
        match sweepA t i j with
        | .ok t => findBaseLoop tst n k (i + 1) (swapPivot t i j)
        | .fail => .fail
        | .ub => .ub
      | none => findBaseLoop tst n k i { t with ir := removeAt t.ir i, ib := removeAt t.ib i, r := t.r - 1 }

/-- `zLPTableauFindBase`, zm_opt_lp_simplex.c:209-236.  The second loop (230-234) removes the elements of `in` that are not less than `n`. -/
def zLPTableauFindBase (tst : Tst K) (n : Nat) (t : Tab K) : Res (Tab K) :=
  match findBaseLoop tst n t.r 0 { t with d := 0 } with
  | .ok t => .ok { t with nb := t.nb.filter (· < n) }
  | .fail => .fail
  | .ub => .ub

/-- `_zLPTableauAns`, zm_opt_lp_simplex.c:245-252, for an answer of size `size`: `ib[i]` behind its end is undefined.  The value is `b[i]`, not
`b[ir[i]]`. -/
def tableauAns (t : Tab K) (size : Nat) : Res (Nat → K) :=
  forUpM 0 t.r (fun i ans => if t.ib i < size then .ok (set1 ans (t.ib i) (t.b i)) else .ub) (fun _ => 0)

/-- The first phase of `zLPSolveSimplex`, zm_opt_lp_simplex.c:268-276. -/
def phase1 (tst : Tst K) (m n : Nat) (A : Nat → Nat → K) (b : Nat → K) : Res (Tab K) :=
  match zLPTableauSimplex tst (n + m) (zLPTableauCreate m n A b) with
  | .ok t => if tst.tiny t.d then .ok t else .fail
  | .fail => .fail
  | .ub => .ub

/-- The start of the second phase, zm_opt_lp_simplex.c:277-279, `_zLTableauSetC` (238-242). -/
def phase2Start (tst : Tst K) (m n : Nat) (A : Nat → Nat → K) (b c : Nat → K) : Res (Tab K) :=
  match phase1 tst m n A b with
  | .ok t =>
    match zLPTableauFindBase tst n t with
    | .ok t => .ok { t with c := c }
    | .fail => .fail
    | .ub => .ub
  | .fail => .fail
  | .ub => .ub

/-- `zLPSolveSimplex`, zm_opt_lp_simplex.c:255-290: the answer and the cost. -/
def zLPSolveSimplex (tst : Tst K) (m n : Nat) (A : Nat → Nat → K) (b c : Nat → K) : Res ((Nat → K) × K) :=
  match phase2Start tst m n A b c with
  | .ok t =>
    match zLPTableauSimplex tst (n + m) t with
    | .ok t =>
      match tableauAns t n with
      | .ok ans => .ok (ans, t.d)
      | .fail => .fail
      | .ub => .ub
    | .fail => .fail
    | .ub => .ub
  | .fail => .fail
  | .ub => .ub

/-- `zLPFeasibleBase`, zm_opt_lp_simplex.c:293-314, for a result vector of size `size`, which the code does not check. -/
def zLPFeasibleBase (tst : Tst K) (m n : Nat) (A : Nat → Nat → K) (b : Nat → K) (size : Nat) : Res (Nat → K) :=
  match phase1 tst m n A b with
  | .ok t => tableauAns t size
  | .fail => .fail
  | .ub => .ub

/-! ## Conversion to the standard form -/

/-- `zLPIneq2Std`, zm_opt_lp_stdcnv.c:11-29: matrix and cost of the standard form. -/
def zLPIneq2Std (m n : Nat) (a : Nat → Nat → K) (c : Nat → K) : (Nat → Nat → K) × (Nat → K) :=
  let as : Nat → Nat → K := fun i j => if i < m ∧ j < n then a i j else 0
  let as := forUp 0 m (fun i as => set2 as i (n + i) 1) as
  (as, fun j => if j < n then c j else 0)

/-- `zLPUnb2Std`, zm_opt_lp_stdcnv.c:34-59. -/
def zLPUnb2Std (m n : Nat) (a : Nat → Nat → K) (c : Nat → K) : (Nat → Nat → K) × (Nat → K) :=
  let as := forUp 0 m (fun i as =>
    let as := forUp 0 n (fun j as => set2 (set2 as i j (a i j)) i (n + j) (- a i j)) as
    set2 as i (n * 2 + i) 1) (fun _ _ => 0)
  let cs := forUp 0 n (fun i cs => set1 (set1 cs i (c i)) (n + i) (- c i)) (fun _ => 0)
  (as, cs)

end Zm.LP
