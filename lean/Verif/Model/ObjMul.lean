import Verif.Model.ObjArith

/-!
# Model of products and transposition of vectors and matrices as objects on a heap

The destination is written while the operands are still read, hence a client has to pass another object as the destination; the two operands may be the same.
-/

namespace Zm.Obj
variable {K : Type*} [Field K] [LinearOrder K] [IsStrictOrderedRing K]

/-- The variables `s`, `s_prev` and `q` of the sums with compensation, zm_raw_vec.c:269, zm_raw_mat.c:303. -/
structure Comp (K : Type*) where
  s : K
  p : K
  q : K

/-- The body of the loops, zm_raw_vec.c:272-275, zm_raw_mat.c:306-309. -/
def Comp.add (a : Comp K) (v : K) : Comp K :=
  let s := a.p + v
  let r := s - a.p
  ⟨s, s, a.q + (v - r)⟩

/-- `zRawVecInnerProd`, zm_raw_vec.c:267-278. -/
def rawInner (b1 i1 b2 i2 size : Nat) (h : Hp K) : Res K :=
  (forUpM 0 size (fun k (a : Comp K) => (rd h b1 (i1 + k)).bind fun x => (rd h b2 (i2 + k)).bind fun y => .ok (a.add (x * y))) ⟨0, 0, 0⟩).bind fun a => .ok (a.s + a.q)

/-- `zRawMatColInnerProd`, zm_raw_mat.c:301-312. -/
def rawColInner (m cap v iv rowsize col : Nat) (h : Hp K) : Res K :=
  (forUpM 0 rowsize (fun k (a : Comp K) => (rd h m (k * cap + col)).bind fun x => (rd h v (iv + k)).bind fun y => .ok (a.add (x * y))) ⟨0, 0, 0⟩).bind fun a =>
  .ok (a.s + a.q)

/-- `zRawMulMatVec`, zm_raw_mat.c:377-381. -/
def rawMulMatVec (m cap v iv rowsize colsize w iw : Nat) (h : Hp K) : Res (Hp K) :=
  forUpM 0 rowsize (fun i h => (rawInner m (i * cap) v iv colsize h).bind fun x => wr h w (iw + i) x) h

/-- `zRawMulMatTVec`, zm_raw_mat.c:384-390. -/
def rawMulMatTVec (m cap v iv rowsize colsize w iw : Nat) (h : Hp K) : Res (Hp K) :=
  forUpM 0 colsize (fun i h => (rawColInner m cap v iv rowsize i h).bind fun x => wr h w (iw + i) x) h

/-- `zRawMulMatMat`, zm_raw_mat.c:393-398. -/
def rawMulMatMat (m1 cap1 rowsize1 m2 cap2 rowsize2 colsize2 m cap3 : Nat) (h : Hp K) : Res (Hp K) :=
  forUpM 0 rowsize1 (fun i h => rawMulMatTVec m2 cap2 m1 (i * cap1) rowsize2 colsize2 m (i * cap3) h) h

/-- `zRawMulMatMatT`, zm_raw_mat.c:401-406. -/
def rawMulMatMatT (m1 cap1 rowsize1 m2 cap2 rowsize2 colsize2 m cap3 : Nat) (h : Hp K) : Res (Hp K) :=
  forUpM 0 rowsize1 (fun i h => rawMulMatVec m2 cap2 m1 (i * cap1) rowsize2 colsize2 m (i * cap3) h) h

/-- The innermost loop of `zRawMulMatTMat`, zm_raw_mat.c:418-419: the sum is made in the destination. -/
def accum (m1 cap1 i m2 cap2 j n m k : Nat) (h : Hp K) : Res (Hp K) :=
  (wr h m k 0).bind fun h =>
  forUpM 0 n (fun l h => (rd h m k).bind fun z => (rd h m1 (l * cap1 + i)).bind fun x => (rd h m2 (l * cap2 + j)).bind fun y => wr h m k (z + x * y)) h

/-- `zRawMulMatTMat`, zm_raw_mat.c:409-420. -/
def rawMulMatTMat (m1 cap1 rowsize1 colsize1 m2 cap2 colsize2 m cap3 : Nat) (h : Hp K) : Res (Hp K) :=
  forUpM 0 colsize1 (fun i h => forUpM 0 colsize2 (fun j h => accum m1 cap1 i m2 cap2 j rowsize1 m (i * cap3 + j) h) h) h

/-- The products. -/
inductive Prd | mv | mtv | mm | mmt | mtm
deriving DecidableEq

/-- The checks of sizes, zm_mat.c:801, 811, 821-822, 832-833, 843-844. -/
def prdCheck (f : Prd) (d1 d2 d : Hdr) : Prop :=
  match f with
  | .mv => d1.cols = d2.cols ∧ d1.rows = d.cols
  | .mtv => d1.rows = d2.cols ∧ d1.cols = d.cols
  | .mm => d1.cols = d2.rows ∧ d1.rows = d.rows ∧ d2.cols = d.cols
  | .mmt => d1.cols = d2.cols ∧ d1.rows = d.rows ∧ d2.rows = d.cols
  | .mtm => d1.rows = d2.rows ∧ d1.cols = d.rows ∧ d2.cols = d.cols
instance (f : Prd) (d1 d2 d : Hdr) : Decidable (prdCheck f d1 d2 d) := by cases f <;> unfold prdCheck <;> infer_instance

/-- `zMulMatVecNC`, `zMulMatTVecNC`, `zMulMatMatNC`, `zMulMatMatTNC`, `zMulMatTMatNC`, zm_mat.c:764-796. -/
def prdNC (f : Prd) (d1 d2 d : Hdr) (h : Hp K) : Res (Hp K) :=
  (bufOf d1).bind fun b1 => (bufOf d2).bind fun b2 => (bufOf d).bind fun b =>
  match f with
  | .mv => rawMulMatVec b1 d1.colcap b2 0 d1.rows d1.cols b 0 h
  | .mtv => rawMulMatTVec b1 d1.colcap b2 0 d1.rows d1.cols b 0 h
  | .mm => rawMulMatMat b1 d1.colcap d1.rows b2 d2.colcap d2.rows d2.cols b d.colcap h
  | .mmt => rawMulMatMatT b1 d1.colcap d1.rows b2 d2.colcap d2.rows d2.cols b d.colcap h
  | .mtm => rawMulMatTMat b1 d1.colcap d1.rows d1.cols b2 d2.colcap d2.cols b d.colcap h

/-- `zMulMatVec`, `zMulMatTVec`, `zMulMatMat`, `zMulMatMatT`, `zMulMatTMat`, zm_mat.c:799-849; `false` is the null pointer. -/
def prd (f : Prd) (p1 p2 p : Nat) (h : Hp K) : Res (Hp K × Bool) :=
  (hd h p1).bind fun d1 => (hd h p2).bind fun d2 => (hd h p).bind fun d =>
  if ¬prdCheck f d1 d2 d then .ok (h, false) else (prdNC f d1 d2 d h).bind fun h => .ok (h, true)

/-- `zMatT`, zm_mat.c:645-652. -/
def zMatT (p1 p : Nat) (h : Hp K) : Res (Hp K × Bool) :=
  (hd h p1).bind fun d1 => (hd h p).bind fun d =>
  if ¬d1.rows = d.cols ∨ ¬d.rows = d1.cols then .ok (h, false) else (zMatTNC p1 p h).bind fun h => .ok (h, true)

/-- `zVecInnerProd`, zm_vec.c:526-539: zero for vectors of different sizes. -/
def zVecInnerProd (p1 p2 : Nat) (h : Hp K) : Res K :=
  (hd h p1).bind fun d1 => (hd h p2).bind fun d2 =>
  if d1.cols ≠ d2.cols then .ok 0 else (bufOf d1).bind fun b1 => (bufOf d2).bind fun b2 => rawInner b1 0 b2 0 d1.cols h

/-- What a client may do: what is in `AOp`, products and transposition. -/
inductive MOp (K : Type*)
  | base (o : AOp K)
  | mul (f : Prd) (x y z : Nat)
  | trans (x z : Nat)

/-- The classes of the second operand and the destination; the first operand is a matrix. -/
def prdKind (f : Prd) : Kind :=
  match f with
  | .mv | .mtv => .vec
  | .mm | .mmt | .mtm => .mat

/-- One step.  The arguments are of the classes in the prototypes, and not null. -/
def mstep (tol : K) (avail : Nat → Bool) (s : Cl K) (o : MOp K) : Res (Cl K) :=
  match o with
  | .base o => astep tol avail s o
  | .mul f x y z =>
    if (s.var x).1 = .mat ∧ (s.var y).1 = prdKind f ∧ (s.var z).1 = prdKind f then
      match (s.var x).2, (s.var y).2, (s.var z).2 with
      | some p1, some p2, some p => (prd f p1 p2 p s.h).bind fun a => .ok { s with h := a.1 }
      | _, _, _ => .ok s
    else .ok s
  | .trans x z =>
    if (s.var x).1 = .mat ∧ (s.var z).1 = .mat then
      match (s.var x).2, (s.var z).2 with
      | some p1, some p => (zMatT p1 p s.h).bind fun a => .ok { s with h := a.1 }
      | _, _ => .ok s
    else .ok s

/-- A history. -/
def mrun (tol : K) (avail : Nat → Bool) : List (MOp K) → Cl K → Res (Cl K)
  | [], s => .ok s
  | o :: l, s => (mstep tol avail s o).bind fun s => mrun tol avail l s

end Zm.Obj
