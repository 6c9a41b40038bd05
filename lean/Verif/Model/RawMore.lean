import Verif.Model.RawMat
import Verif.Model.MatMore

/-!
# Model of the rest of `src/zm_raw_vec.c` and `src/zm_raw_mat.c`, and of the functions that fill vectors and matrices

The memory model is that of Model/RawVec.lean and Model/RawMat.lean.  Variable arguments are a list; reading more of them than were given is undefined.
The number drawn at the position `p` of the sequence of random numbers for the range from `a` to `b` is `rnd p a b`.
-/

namespace Zm.RawMat
open Zm RawVec Vec Mat

variable {K : Type*}

/-! ## Direct operations -/

/-- `zRawMatTouchup`, zm_raw_mat.c:16-19. -/
def zRawMatTouchup [Field K] [LinearOrder K] (m cap rows cols : Nat) (tol : K) (h : Mem K) : Res (Mem K) :=
  forUpM 0 rows (fun i h => zRawVecTouchup (m + i*cap) cols tol h) h

/-- `zRawMatRevDRC`, zm_raw_mat.c:250-254. -/
def zRawMatRevDRC [Neg K] (m cap rows cols : Nat) (h : Mem K) : Res (Mem K) :=
  forUpM 0 rows (fun i h => zRawVecRevDRC (m + i*cap) cols h) h

/-- `zRawMatDivDRC`, zm_raw_mat.c:264-267. -/
def zRawMatDivDRC [Field K] (m cap : Nat) (k : K) (rows cols : Nat) (h : Mem K) : Res (Mem K) := zRawMatMulDRC m cap (1/k) rows cols h

/-- `zRawMatColAddDRC`, zm_raw_mat.c:277-280. -/
def zRawMatColAddDRC [Add K] (m cap colvec rows col : Nat) (h : Mem K) : Res (Mem K) :=
  forUpM 0 rows (fun i h => do h.wr (m+col+i*cap) ((← h.rd (m+col+i*cap)) + (← h.rd (colvec+i)))) h

/-- `zRawMatColSubDRC`, zm_raw_mat.c:283-286. -/
def zRawMatColSubDRC [Sub K] (m cap colvec rows col : Nat) (h : Mem K) : Res (Mem K) :=
  forUpM 0 rows (fun i h => do h.wr (m+col+i*cap) ((← h.rd (m+col+i*cap)) - (← h.rd (colvec+i)))) h

/-- `zRawMatColMulDRC`, zm_raw_mat.c:289-292. -/
def zRawMatColMulDRC [Mul K] (m cap : Nat) (k : K) (rows col : Nat) (h : Mem K) : Res (Mem K) :=
  forUpM 0 rows (fun i h => do h.wr (m+col+i*cap) ((← h.rd (m+col+i*cap)) * k)) h

/-- `zRawMatColCatDRC`, zm_raw_mat.c:295-298. -/
def zRawMatColCatDRC [Add K] [Mul K] (m cap : Nat) (k : K) (colvec rows col : Nat) (h : Mem K) : Res (Mem K) :=
  forUpM 0 rows (fun i h => do h.wr (m+col+i*cap) ((← h.rd (m+col+i*cap)) + k * (← h.rd (colvec+i)))) h

/-- `_zRawVecCats` and `zRawVecCats`, zm_raw_vec.c:189-209, for the first `n` pairs of the arguments. -/
def zRawVecCats [Add K] [Mul K] (v size : Nat) : Nat → List (K × Nat) → Mem K → Res (Mem K)
  | 0, _, m => .ok m
  | _+1, [], _ => .ub
  | n+1, (k, w) :: l, m => (zRawVecCatDRC v k w size m).bind fun m => zRawVecCats v size n l m

/-- `zRawVecLinearSum`, zm_raw_vec.c:212-220. -/
def zRawVecLinearSum [Add K] [Mul K] [Zero K] (v size n : Nat) (l : List (K × Nat)) (m : Mem K) : Res (Mem K) :=
  (zRawVecSetAll v size 0 m).bind fun m => zRawVecCats v size n l m

/-! ## Comparisons -/

/-- The loop shape `for( ; size>0; size-- ) if( !test ) return false; return true;` with the index `i` for the steps done. -/
def whileAll (f : Nat → Res Bool) : Nat → Nat → Res Bool
  | 0, _ => .ok true
  | n+1, i => (f i).bind fun b => if b = false then .ok false else whileAll f n (i+1)

/-- `zRawVecEqual`, zm_raw_vec.c:60-65. -/
def zRawVecEqual [Field K] [LinearOrder K] (v1 v2 size : Nat) (tol : K) (m : Mem K) : Res Bool :=
  whileAll (fun i => (m.rd (v1+i)).bind fun a => (m.rd (v2+i)).bind fun b => .ok (Misc.zEqual (.fin a) (.fin b) tol)) size 0

/-- `zRawVecMatch`, zm_raw_vec.c:68-73. -/
def zRawVecMatch [DecidableEq K] (v1 v2 size : Nat) (m : Mem K) : Res Bool :=
  whileAll (fun i => (m.rd (v1+i)).bind fun a => (m.rd (v2+i)).bind fun b => .ok (decide (a = b))) size 0

/-- `zRawVecIsTol`, zm_raw_vec.c:76-81. -/
def zRawVecIsTol [Field K] [LinearOrder K] (v size : Nat) (tol : K) (m : Mem K) : Res Bool :=
  whileAll (fun i => (m.rd (v+i)).bind fun a => .ok (Misc.zIsTol a tol)) size 0

/-- `zRawMatEqual`, zm_raw_mat.c:28-33. -/
def zRawMatEqual [Field K] [LinearOrder K] (m1 cap1 m2 cap2 rows cols : Nat) (tol : K) (m : Mem K) : Res Bool :=
  whileAll (fun i => zRawVecEqual (m1 + i*cap1) (m2 + i*cap2) cols tol m) rows 0

/-- `zRawMatMatch`, zm_raw_mat.c:36-41. -/
def zRawMatMatch [DecidableEq K] (m1 cap1 m2 cap2 rows cols : Nat) (m : Mem K) : Res Bool :=
  whileAll (fun i => zRawVecMatch (m1 + i*cap1) (m2 + i*cap2) cols m) rows 0

/-- `zRawMatIsTol`, zm_raw_mat.c:44-49. -/
def zRawMatIsTol [Field K] [LinearOrder K] (m1 cap1 rows cols : Nat) (tol : K) (m : Mem K) : Res Bool :=
  whileAll (fun i => zRawVecIsTol (m1 + i*cap1) cols tol m) rows 0

/-! ## Random elements -/

/-- `zRawVecRandUniform`, zm_raw_vec.c:35-38, from the position `pos` of the random numbers. -/
def zRawVecRandUniform (rnd : Nat → K → K → K) (pos v size : Nat) (lo hi : K) (m : Mem K) : Res (Mem K) :=
  forUpM 0 size (fun i m => m.wr (v+i) (rnd (pos+i) lo hi)) m

/-- `zRawVecRand`, zm_raw_vec.c:41-44. -/
def zRawVecRand (rnd : Nat → K → K → K) (pos v lo hi size : Nat) (m : Mem K) : Res (Mem K) :=
  forUpM 0 size (fun i m => do m.wr (v+i) (rnd (pos+i) (← m.rd (lo+i)) (← m.rd (hi+i)))) m

/-- `zRawMatRandUniform`, zm_raw_mat.c:72-75. -/
def zRawMatRandUniform (rnd : Nat → K → K → K) (pos m cap : Nat) (lo hi : K) (rows cols : Nat) (h : Mem K) : Res (Mem K) :=
  forUpM 0 rows (fun i h => zRawVecRandUniform rnd (pos + i*cols) (m + i*cap) cols lo hi h) h

/-- `zRawMatRand`, zm_raw_mat.c:78-82. -/
def zRawMatRand (rnd : Nat → K → K → K) (pos m cap lo locap hi hicap rows cols : Nat) (h : Mem K) : Res (Mem K) :=
  forUpM 0 rows (fun i h => zRawVecRand rnd (pos + i*cols) (m + i*cap) (lo + i*locap) (hi + i*hicap) cols h) h

/-! ## Elements from lists and arrays -/

/-- The next variable argument. -/
def vaArg {α : Type*} : List α → Res (α × List α)
  | [] => .ub
  | x :: l => .ok (x, l)

/-- `zVecSetElemVList`, zm_vec.c:10-17; what is left of the arguments is delivered. -/
def zVecSetElemVList (v : VecRef) (args : List K) (m : Mem K) : Res (Mem K × List K) :=
  forUpM 0 v.size (fun i (s : Mem K × List K) => do
    let a ← vaArg s.2
    return (← s.1.wr (v.buf + i) a.1, a.2)) (m, args)

/-- `_zMatSetElemList`, zm_mat.c:10-18. -/
def zMatSetElemList (m : MatRef) (args : List K) (h : Mem K) : Res (Mem K × List K) :=
  forUpM 0 m.rows (fun i s => zVecSetElemVList ⟨m.buf + i*m.colcap, m.cols⟩ s.2 s.1) (h, args)

/-- `zVecCopyArray`, zm_vec.c:111-116. -/
def zVecCopyArray (array size : Nat) (v : VecRef) (m : Mem K) : Res (Mem K × Bool) :=
  if v.size ≠ size then .ok (m, false) else (zRawVecCopy array v.buf size m).bind fun m => .ok (m, true)

/-- `zMatCopyArray`, zm_mat.c:169-177. -/
def zMatCopyArray (array rows cols : Nat) (m : MatRef) (h : Mem K) : Res (Mem K × Bool) :=
  if m.rows ≠ rows ∨ m.cols ≠ cols then .ok (h, false)
  else (zRawMatCopy array cols m.buf m.colcap rows cols h).bind fun h => .ok (h, true)

/-! ## Blocks at signed positions -/

/-- `zMatGet`, zm_mat.c:201-216, with `zRawMatGet`, zm_raw_mat.c:135-147, for positions of any sign.  Behind the test nothing is clamped.  The address of each row is an integer;
outside of the memory it is undefined. -/
def zMatGetI (src : MatRef) (r c : Int) (dest : MatRef) (h : Mem K) : Res (Mem K × Bool) :=
  if r + dest.rows > src.rows ∨ c + dest.cols > src.cols then .ok (h, false)
  else (forUpM 0 dest.rows (fun i h =>
    memcpyI (src.buf + r*src.colcap + c + i*src.colcap) (dest.buf + i*dest.colcap) dest.cols h) h).bind fun h => .ok (h, true)

/-- `zMatPut`, zm_mat.c:237-252, with `zRawMatPut`, zm_raw_mat.c:150-162, in the same way. -/
def zMatPutI (dest : MatRef) (r c : Int) (src : MatRef) (h : Mem K) : Res (Mem K × Bool) :=
  if r + src.rows > dest.rows ∨ c + src.cols > dest.cols then .ok (h, false)
  else (forUpM 0 src.rows (fun i h =>
    memcpyI (src.buf + i*src.colcap) (dest.buf + r*dest.colcap + c + i*dest.colcap) src.cols h) h).bind fun h => .ok (h, true)

end Zm.RawMat
