import Verif.Base.Fn
import Mathlib.Analysis.Real.Sqrt

/-! # Vector containers: kd-tree, list, sequence, ring

Models of `src/zm_vec_tree.c`, `src/zm_vec_list.c`, `src/zm_seq.c`, `src/zm_vec_ring.c` and of `zVecEdgeDist`, `zVecProj`, `zVecOrthogonalize` of
`src/zm_vec.c`.  Vectors are functions on their index of which the first `n` entries exist; the length of all vectors involved is the
same `n`.  Memory allocation succeeds.  `HUGE_VAL` as a distance or bound is `none`.  A ZEDA list is a Lean list that begins with the
cell at the tail, which is where `zListForEach` begins (`zListCellNext` goes on towards the head).
-/

namespace Zm.Cont
open Zm

/-! ## Distances -/

/-- `zVecSqrDist`, zm_vec.h:537 with `zRawVecSqrDist`, zm_raw_vec.c. -/
def zVecSqrDist {K : Type*} [Field K] (n : Nat) (a b : Nat → K) : K := forUp 0 n (fun i d => d + (a i - b i) * (a i - b i)) 0

/-- `zVecDist`, zm_vec.h:538. -/
noncomputable def zVecDist (n : Nat) (a b : Nat → ℝ) : ℝ := Real.sqrt (zVecSqrDist n a b)

/-- `zVecEdgeDist`, zm_vec.c:593-616 (`tol` is `zTOL`). -/
noncomputable def zVecEdgeDist (tol : ℝ) (n : Nat) (v v1 v2 : Nat → ℝ) : ℝ :=
  let nd := forUp 0 n (fun i (p : ℝ × ℝ) => let e := v2 i - v1 i; (p.1 + (v i - v1 i) * e, p.2 + e * e)) (0, 0)
  if |nd.2| ≤ tol then zVecDist n v v1
  else
    let s := nd.1 / nd.2
    Real.sqrt (forUp 0 n (fun i d => d + (s * (v2 i - v1 i) - (v i - v1 i)) * (s * (v2 i - v1 i) - (v i - v1 i))) 0)

/-- `zVecProj`, zm_vec.c:576-583, for equal sizes; a vanishing `n` divides zero by zero (`ub`). -/
def zVecProj {K : Type*} [Field K] [DecidableEq K] (m : Nat) (v n pv : Nat → K) : Res (Nat → K) :=
  let d := forUp 0 m (fun i s => s + n i * n i) 0
  if d = 0 then .ub
  else
    let c := forUp 0 m (fun i s => s + v i * n i) 0 / d
    .ok (forUp 0 m (fun i pv => set1 pv i (n i * c)) pv)

/-- `zVecOrthogonalize`, zm_vec.c:586-590, with `ov` a vector other than `v`. -/
def zVecOrthogonalize {K : Type*} [Field K] [DecidableEq K] (m : Nat) (v n ov : Nat → K) : Res (Nat → K) :=
  (zVecProj m v n ov).bind fun ov => .ok (forUp 0 m (fun i ov => set1 ov i (v i - ov i)) ov)

/-- `zVecOrthogonalize` called with `ov` the same vector as `v`: `zVecSubNC( v, ov, ov )` subtracts the projection from itself. -/
def zVecOrthogonalizeAlias {K : Type*} [Field K] [DecidableEq K] (m : Nat) (v n : Nat → K) : Res (Nat → K) :=
  (zVecProj m v n v).bind fun v => .ok (forUp 0 m (fun i v => set1 v i (v i - v i)) v)

/-! ## kd-tree -/

/-- `zVecTree`, zm_vec_tree.h:14-20; `nil` is the null pointer. -/
inductive Tree where
  | nil
  | node (split : Nat) (v : Nat → ℝ) (vmin vmax : Nat → Option ℝ) (s0 s1 : Tree)

/-- `_zVecTreeCreateLeaf`, zm_vec_tree.c:44-60, with the bounding box set by the caller. -/
def leaf (split : Nat) (v : Nat → ℝ) (vmin vmax : Nat → Option ℝ) : Tree := .node split v vmin vmax .nil .nil

/-- `_zVecTreeAdd`, zm_vec_tree.c:69-92 (`n` is the size of the vectors), with `_zVecTreeChooseBranch`, zm_vec_tree.c:63-66. -/
noncomputable def treeAdd (n : Nat) (x : Nat → ℝ) : Tree → Tree
  | .nil => .nil
  | .node sp v lo hi s0 s1 =>
    if x sp ≥ v sp then
      match s0 with
      | .nil => .node sp v lo hi (leaf ((sp + 1) % n) x (set1 lo sp (some (v sp))) hi) s1
      | .node sp' v' lo' hi' s0' s1' => .node sp v lo hi (treeAdd n x (.node sp' v' lo' hi' s0' s1')) s1
    else
      match s1 with
      | .nil => .node sp v lo hi s0 (leaf ((sp + 1) % n) x lo (set1 hi sp (some (v sp))))
      | .node sp' v' lo' hi' s0' s1' => .node sp v lo hi s0 (treeAdd n x (.node sp' v' lo' hi' s0' s1'))

/-- `zVecTreeAdd`, zm_vec_tree.c:95-102.  The tree made by `zVecTreeInit` (zm_vec_tree.c:10-25: invalid split index, no vertex, infinite
box) is `nil`. -/
noncomputable def zVecTreeAdd (n : Nat) (T : Tree) (x : Nat → ℝ) : Tree :=
  match T with
  | .nil => leaf 0 x (fun _ => none) (fun _ => none)
  | .node sp v lo hi s0 s1 => treeAdd n x (.node sp v lo hi s0 s1)

/-- Squared distance from `c` to a box, zm_vec_tree.c:112-118. -/
noncomputable def boxDist (n : Nat) (vmin vmax : Nat → Option ℝ) (c : Nat → ℝ) : ℝ :=
  forUp 0 n (fun i d =>
    let d := match vmin i with
      | some m => if c i < m then d + (c i - m) * (c i - m) else d
      | none => d
    match vmax i with
      | some m => if c i > m then d + (c i - m) * (c i - m) else d
      | none => d) 0

/-- `_zVecTreeIsOverlap`, zm_vec_tree.c:107-120. -/
noncomputable def isOverlap (tol : ℝ) (n : Nat) (vmin vmax : Nat → Option ℝ) (c : Nat → ℝ) (r : Option ℝ) : Bool :=
  match r with
  | none => true
  | some r => decide (boxDist n vmin vmax c ≤ r * r + tol)

/-- Nearest neighbour found so far (`*nn`, `*dmin`). -/
structure NN where
  nn : Option (Nat → ℝ)
  dmin : Option ℝ

/-- `_zVecTreeNNTest`, zm_vec_tree.c:123-131. -/
noncomputable def nnTest (n : Nat) (v q : Nat → ℝ) (s : NN) : NN :=
  let d := zVecDist n v q
  match s.dmin with
  | none => ⟨some v, some d⟩
  | some m => if d < m then ⟨some v, some d⟩ else s

/-- The condition `node->s[b] && _zVecTreeIsOverlap( node->s[b], v, *dmin )` of zm_vec_tree.c:139, 141 and 155. -/
noncomputable def reach (tol : ℝ) (n : Nat) (T : Tree) (q : Nat → ℝ) (s : NN) : Bool :=
  match T with
  | .nil => false
  | .node _ _ lo hi _ _ => isOverlap tol n lo hi q s.dmin

/-- `_zVecTreeNNOpp`, zm_vec_tree.c:136-144 (never called on a null pointer). -/
noncomputable def nnOpp (tol : ℝ) (n : Nat) (q : Nat → ℝ) : Tree → NN → NN
  | .nil, s => s
  | .node _ v _ _ s0 s1, s =>
    let s := nnTest n v q s
    let s := if reach tol n s0 q s then nnOpp tol n q s0 s else s
    if reach tol n s1 q s then nnOpp tol n q s1 s else s

/-- `_zVecTreeNN`, zm_vec_tree.c:147-158 (a null branch leaves the state unchanged). -/
noncomputable def nnSearch (tol : ℝ) (n : Nat) (q : Nat → ℝ) : Tree → NN → NN
  | .nil, s => s
  | .node sp v _ _ s0 s1, s =>
    if q sp ≥ v sp then
      let s := nnSearch tol n q s0 s
      let s := nnTest n v q s
      if reach tol n s1 q s then nnOpp tol n q s1 s else s
    else
      let s := nnSearch tol n q s1 s
      let s := nnTest n v q s
      if reach tol n s0 q s then nnOpp tol n q s0 s else s

/-- `zVecTreeNN`, zm_vec_tree.c:161-167: the vector of the node found and its distance.  An initialised tree without vectors has split
index -1 and no vertex (`ub`). -/
noncomputable def zVecTreeNN (tol : ℝ) (n : Nat) (T : Tree) (q : Nat → ℝ) : Res NN :=
  match T with
  | .nil => .ub
  | .node sp v lo hi s0 s1 => .ok (nnSearch tol n q (.node sp v lo hi s0 s1) ⟨none, none⟩)

/-! ## List -/

/-- `zVecListNN`, zm_vec_list.c:89-102: nearest vector and squared distance before the final square root. -/
def listNN {K : Type*} [Field K] [LinearOrder K] (n : Nat) (q : Nat → K) : List (Nat → K) → Option ((Nat → K) × K) → Option ((Nat → K) × K)
  | [], s => s
  | v :: l, s =>
    let d2 := zVecSqrDist n v q
    match s with
    | none => listNN n q l (some (v, d2))
    | some (u, m) => listNN n q l (if d2 < m then some (v, d2) else some (u, m))

/-- `zVecListNN`, zm_vec_list.c:89-102; `none` is the null pointer with `HUGE_VAL`. -/
noncomputable def zVecListNN (n : Nat) (l : List (Nat → ℝ)) (q : Nat → ℝ) : Option ((Nat → ℝ) × ℝ) :=
  (listNN n q l none).map fun p => (p.1, Real.sqrt p.2)

section RDP
variable {V K : Type*} [Zero K] [LinearOrder K]

/-- Scan for the farthest intermediate vector, zm_vec_list.c:116-121 (`i` is the index of the next one). -/
def rdpScan (metric : V → V → V → K) (a b : V) : List V → Nat → K × Option Nat → K × Option Nat
  | [], _, s => s
  | x :: l, i, s => let d := metric x a b; rdpScan metric a b l (i+1) (if d > s.1 then (d, some i) else s)

/-- `_zVecListRDP`, zm_vec_list.c:111-132: the vectors kept between `a` (tail) and `b` (head).  Recursion on a null pointer is `ub`. -/
def rdp (metric : V → V → V → K) (tol : K) : Nat → V → List V → V → Res (List V)
  | 0, _, _, _ => .ub
  | fuel+1, a, l, b =>
    let s := rdpScan metric a b l 0 (0, none)
    if s.1 > tol then
      match s.2 with
      | none => .ub
      | some i =>
        match l[i]? with
        | none => .ub
        | some c =>
          (rdp metric tol fuel a (l.take i) c).bind fun l1 =>
          (rdp metric tol fuel c (l.drop (i+1)) b).bind fun l2 => .ok (l1 ++ c :: l2)
    else .ok []

/-- `zVecListRDP`, zm_vec_list.c:135-139.  With one cell, and with none for a
negative tolerance, the loop runs over the root cell, which holds no vector (`ub`). -/
def zVecListRDP (metric : V → V → V → K) (tol : K) (l : List V) : Res (List V) :=
  match l with
  | [] => if 0 > tol then .ub else .ok []
  | [_] => .ub
  | a :: x :: r => (rdp metric tol (r.length + 1) a (x :: r).dropLast ((x :: r).getLast (by simp))).bind fun m => .ok (a :: m ++ [(x :: r).getLast (by simp)])

end RDP

/-! ## Sequence -/

section Seq
variable {V K : Type*}

/-- `zSeqEnqueue`, zm_seq.c:34-50 (`none` is the null vector; the first cell of the list is the oldest). -/
def zSeqEnqueue (s : List (V × K)) (v : Option V) (dt : K) : List (V × K) × Bool :=
  match v with
  | none => (s, false)
  | some v => (s ++ [(v, dt)], true)

/-- `zSeqDequeue`, zm_seq.c:53-63. -/
def zSeqDequeue (s : List (V × K)) : List (V × K) × Option (V × K) :=
  match s with
  | [] => ([], none)
  | c :: s => (s, some c)

/-- The loop of `zSeqJump`, zm_seq.c:70-76, from a suffix of the sequence; `last` is the newest cell (the root if there is none). -/
def jumpLoop (last : Option (V × K)) : List (V × K) → Int → Option (V × K)
  | [], _ => last
  | c :: s, step => if step ≤ 0 then some c else jumpLoop last s (step - 1)

/-- `zSeqJump`, zm_seq.c:66-78; `none` is the root cell of an empty sequence. -/
def zSeqJump (s : List (V × K)) (step : Int) : Option (V × K) := jumpLoop s.getLast? s step

end Seq

/-! ## Ring -/

section Ring
variable {K : Type*} [Field K]

/-- A ring of `size` vectors; element `i` counts from the head. -/
structure Ring (K : Type*) where
  size : Nat
  head : Nat
  buf : Nat → Nat → K

/-- `zRingElem` (ZEDA). -/
def Ring.elem (r : Ring K) (i : Nat) : Nat → K := r.buf ((r.head + i) % r.size)

/-- `zVecRingFill`, zm_vec_ring.c:36-47 (`n` is the size of the vectors of the ring, `m` that of `v`). -/
def zVecRingFill (n : Nat) (r : Ring K) (m : Nat) (v : Nat → K) : Ring K × Bool :=
  if n ≠ m then (r, false)
  else ({ r with buf := forUp 0 r.size (fun i b => set1 b ((r.head + i) % r.size) (forUp 0 n (fun j w => set1 w j (v j)) (b ((r.head + i) % r.size)))) r.buf }, true)

/-- `zVecRingCat`, zm_vec_ring.c:50-61 (`cn` is the size of `c`). -/
def zVecRingCat (n : Nat) (m : Nat) (v : Nat → K) (cn : Nat) (c : Nat → K) (r : Ring K) : (Nat → K) × Bool :=
  if n ≠ m then (v, false)
  else (forUp 0 cn (fun i v => forUp 0 m (fun j v => set1 v j (v j + c i * r.elem i j)) v) v, true)

/-- `zVecRingLinearSum`, zm_vec_ring.c:64-68. -/
def zVecRingLinearSum (n : Nat) (m : Nat) (v : Nat → K) (cn : Nat) (c : Nat → K) (r : Ring K) : (Nat → K) × Bool :=
  zVecRingCat n m (forUp 0 m (fun j v => set1 v j 0) v) cn c r

end Ring
end Zm.Cont
