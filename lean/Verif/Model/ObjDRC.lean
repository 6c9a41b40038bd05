import Verif.Model.ObjMul
import Verif.Model.RawMat

/-!
# Model of products and transposition in place, of objects on a heap
-/

namespace Zm.Obj
variable {K : Type*} [Field K] [LinearOrder K] [IsStrictOrderedRing K]

/-- `zMulMatVecDRC`, zm_mat.c:854-863, and `zMulMatTVecDRC` (`t`), zm_mat.c:866-875; the answer of the product is ignored. -/
def zMulMatVecDRC (t : Bool) (avail : Nat → Bool) (m v : Nat) (h : Hp K) : Res (Hp K × Bool) :=
  (hd h v).bind fun d => (zVecAlloc avail d.cols h).bind fun r =>
  match r.1 with
  | none => .ok (r.2, false)
  | some tmp => (prd (if t then .mtv else .mv) m v tmp r.2).bind fun a => (zVecCopyNC tmp v a.1).bind fun h => (zMatFree h (some tmp)).bind fun h => .ok (h, true)

/-- `zMatTDRC`, zm_mat.c:655-667: all of the buffer is transposed by `zRawMatTDRC` (C09), and the capacities are exchanged.  The `while` loops of `zRawMatTDRC` run through
a cycle of places and end within as many steps as there are places. -/
def zMatTDRC (m : Nat) (h : Hp K) : Res (Hp K) :=
  (hd h m).bind fun d => (bufOf d).bind fun b =>
  if b ∈ h.live then
    (RawMat.zRawMatTDRC (d.rowcap * d.colcap + 1) 0 d.rowcap d.colcap (⟨h.len b, h.dat b⟩ : Mem K)).bind fun e =>
    .ok { h with dat := fun b' => if b' = b then e.val else h.dat b', hdr := fun q => if q = m then ⟨some b, d.colcap, d.rowcap, d.cols, d.rows⟩ else h.hdr q }
  else .ub

/-- What a client may do: what is in `MOp`, and the functions in place. -/
inductive DOp (K : Type*)
  | base (o : MOp K)
  | mulDRC (t : Bool) (x y : Nat)
  | transDRC (x : Nat)

/-- One step. -/
def dstep (tol : K) (avail : Nat → Bool) (s : Cl K) (o : DOp K) : Res (Cl K) :=
  match o with
  | .base o => mstep tol avail s o
  | .mulDRC t x y =>
    if (s.var x).1 = .mat ∧ (s.var y).1 = .vec then
      match (s.var x).2, (s.var y).2 with
      | some p, some q => (zMulMatVecDRC t avail p q s.h).bind fun a => .ok { s with h := a.1 }
      | _, _ => .ok s
    else .ok s
  | .transDRC x =>
    if (s.var x).1 = .mat then
      match (s.var x).2 with
      | some p => (zMatTDRC p s.h).bind fun h => .ok { s with h := h }
      | none => .ok s
    else .ok s

/-- A history. -/
def drun (tol : K) (avail : Nat → Bool) : List (DOp K) → Cl K → Res (Cl K)
  | [], s => .ok s
  | o :: l, s => (dstep tol avail s o).bind fun s => drun tol avail l s

end Zm.Obj
