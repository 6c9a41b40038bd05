import Verif.Model.RawVec
import Verif.Base.Upd

/-!
# Model of `src/zm_raw_mat.c` and of the matrix functions of `src/zm_mat.c`

A raw matrix is given by the offset of its first element, its column capacity (stride) and its sizes; all operands
live in one memory block.  Sizes are natural numbers (a negative number of rows means an empty loop, as for 0; negative
numbers of columns can only arise from the clamps of `zRawMatGet` and `zRawMatPut`, where they are represented).
-/

namespace Zm.RawMat
open Zm RawVec

variable {K : Type*}

/-- `zRawMatZero`, zm_raw_mat.c:10-13. -/
def zRawMatZero [Zero K] (m cap rows cols : Nat) (h : Mem K) : Res (Mem K) :=
  forUpM 0 rows (fun i h => zRawVecSetAll (m + i*cap) cols 0 h) h

/-- `zRawMatCopy`, zm_raw_mat.c:22-25. -/
def zRawMatCopy (src scap dest dcap rows cols : Nat) (h : Mem K) : Res (Mem K) :=
  forUpM 0 rows (fun i h => zRawVecCopy (src + i*scap) (dest + i*dcap) cols h) h

/-- `zRawMatIdent`, zm_raw_mat.c:52-59. -/
def zRawMatIdent [Zero K] [One K] (m cap rows cols : Nat) (h : Mem K) : Res (Mem K) := do
  let h ← zRawMatZero m cap rows cols h
  forUpM 0 (min rows cols) (fun i h => h.wr (m + i*(cap+1)) 1) h

/-- `zRawMatDiag`, zm_raw_mat.c:62-69. -/
def zRawMatDiag [Zero K] (m cap d rows cols : Nat) (h : Mem K) : Res (Mem K) := do
  let h ← zRawMatZero m cap rows cols h
  forUpM 0 (min rows cols) (fun i h => do h.wr (m + i*(cap+1)) (← h.rd (d+i))) h

/-- `zRawMatGetRow`, zm_raw_mat.c:85-88. -/
def zRawMatGetRow (m cap cols row rowvec : Nat) (h : Mem K) : Res (Mem K) :=
  zRawVecCopy (m + row*cap) rowvec cols h

/-- `zRawMatGetCol`, zm_raw_mat.c:91-94. -/
def zRawMatGetCol (m cap rows col colvec : Nat) (h : Mem K) : Res (Mem K) :=
  forUpM 0 rows (fun i h => do h.wr (colvec+i) (← h.rd (m+col+i*cap))) h

/-- `zRawMatPutRow`, zm_raw_mat.c:97-100. -/
def zRawMatPutRow (m cap cols row rowvec : Nat) (h : Mem K) : Res (Mem K) :=
  zRawVecCopy rowvec (m + row*cap) cols h

/-- `zRawMatPutCol`, zm_raw_mat.c:103-106. -/
def zRawMatPutCol (m cap rows col colvec : Nat) (h : Mem K) : Res (Mem K) :=
  forUpM 0 rows (fun i h => do h.wr (m+col+i*cap) (← h.rd (colvec+i))) h

/-- `zRawMatSwapRow`, zm_raw_mat.c:109-120. -/
def zRawMatSwapRow (m cap cols row1 row2 : Nat) (h : Mem K) : Res (Mem K) :=
  forUpM 0 cols (fun j h => do
    let tmp ← h.rd (m + row1*cap + j)
    let h ← h.wr (m + row1*cap + j) (← h.rd (m + row2*cap + j))
    h.wr (m + row2*cap + j) tmp) h

/-- `zRawMatSwapCol`, zm_raw_mat.c:123-132. -/
def zRawMatSwapCol (m cap rows col1 col2 : Nat) (h : Mem K) : Res (Mem K) :=
  forUpM 0 rows (fun i h => do
    let tmp ← h.rd (m + i*cap + col1)
    let h ← h.wr (m + i*cap + col1) (← h.rd (m + i*cap + col2))
    h.wr (m + i*cap + col2) tmp) h

/-- `zRawMatGet`, zm_raw_mat.c:135-147 (the two clamps; a negative clamped number of rows is an empty loop, as is 0; a
negative clamped number of columns reaches `memcpy`). -/
def zRawMatGet (src scap srows scols r c dest dcap drows dcols : Nat) (h : Mem K) : Res (Mem K) :=
  let drows := if r + drows > srows then srows - r else drows
  let dcols : Int := if c + dcols > scols then scols - c else dcols
  forUpM 0 drows (fun i h => zRawVecCopy (src + r*scap + c + i*scap) (dest + i*dcap) dcols h) h

/-- `zRawMatPut`, zm_raw_mat.c:150-162. -/
def zRawMatPut (dest dcap drows dcols r c src scap srows scols : Nat) (h : Mem K) : Res (Mem K) :=
  let srows := if r + srows > drows then drows - r else srows
  let scols : Int := if c + scols > dcols then dcols - c else scols
  forUpM 0 srows (fun i h => zRawVecCopy (src + i*scap) (dest + r*dcap + c + i*dcap) scols h) h

/-- `zRawMatTGet`, zm_raw_mat.c:165-177. -/
def zRawMatTGet (src scap srows scols r c dest dcap drows dcols : Nat) (h : Mem K) : Res (Mem K) :=
  let dcols := if r + dcols > srows then srows - r else dcols
  let drows := if c + drows > scols then scols - c else drows
  forUpM 0 drows (fun i h => zRawMatGetCol (src + r*scap + c + i) scap dcols 0 (dest + i*dcap) h) h

/-- `zRawMatTPut`, zm_raw_mat.c:180-192. -/
def zRawMatTPut (dest dcap drows dcols r c src scap srows scols : Nat) (h : Mem K) : Res (Mem K) :=
  let scols := if r + scols > drows then drows - r else scols
  let srows := if c + srows > dcols then dcols - c else srows
  forUpM 0 srows (fun i h => zRawMatPutCol (dest + r*dcap + c + i) dcap scols 0 (src + i*scap) h) h

/-- `zRawMatAdd`, zm_raw_mat.c:195-199. -/
def zRawMatAdd [Add K] (m1 cap1 m2 cap2 m cap rows cols : Nat) (h : Mem K) : Res (Mem K) :=
  forUpM 0 rows (fun i h => zRawVecAdd (m1 + i*cap1) (m2 + i*cap2) (m + i*cap) cols h) h
/-- `zRawMatSub`, zm_raw_mat.c:202-206. -/
def zRawMatSub [Sub K] (m1 cap1 m2 cap2 m cap rows cols : Nat) (h : Mem K) : Res (Mem K) :=
  forUpM 0 rows (fun i h => zRawVecSub (m1 + i*cap1) (m2 + i*cap2) (m + i*cap) cols h) h
/-- `zRawMatRev`, zm_raw_mat.c:209-213. -/
def zRawMatRev [Neg K] (m1 cap1 m cap rows cols : Nat) (h : Mem K) : Res (Mem K) :=
  forUpM 0 rows (fun i h => zRawVecRev (m1 + i*cap1) (m + i*cap) cols h) h
/-- `zRawMatMul`, zm_raw_mat.c:216-220. -/
def zRawMatMul [Mul K] (m1 cap1 : Nat) (k : K) (m cap rows cols : Nat) (h : Mem K) : Res (Mem K) :=
  forUpM 0 rows (fun i h => zRawVecMul (m1 + i*cap1) k (m + i*cap) cols h) h
/-- `zRawMatDiv`, zm_raw_mat.c:223-226. -/
def zRawMatDiv [Field K] (m1 cap1 : Nat) (k : K) (m cap rows cols : Nat) (h : Mem K) : Res (Mem K) :=
  zRawMatMul m1 cap1 (1/k) m cap rows cols h
/-- `zRawMatCat`, zm_raw_mat.c:229-233. -/
def zRawMatCat [Add K] [Mul K] (m1 cap1 : Nat) (k : K) (m2 cap2 m cap rows cols : Nat) (h : Mem K) : Res (Mem K) :=
  forUpM 0 rows (fun i h => zRawVecCat (m1 + i*cap1) k (m2 + i*cap2) (m + i*cap) cols h) h
/-- `zRawMatAddDRC`, zm_raw_mat.c:236-240. -/
def zRawMatAddDRC [Add K] (m1 cap1 m2 cap2 rows cols : Nat) (h : Mem K) : Res (Mem K) :=
  forUpM 0 rows (fun i h => zRawVecAddDRC (m1 + i*cap1) (m2 + i*cap2) cols h) h
/-- `zRawMatSubDRC`, zm_raw_mat.c:243-247. -/
def zRawMatSubDRC [Sub K] (m1 cap1 m2 cap2 rows cols : Nat) (h : Mem K) : Res (Mem K) :=
  forUpM 0 rows (fun i h => zRawVecSubDRC (m1 + i*cap1) (m2 + i*cap2) cols h) h
/-- `zRawMatMulDRC`, zm_raw_mat.c:257-261. -/
def zRawMatMulDRC [Mul K] (m cap : Nat) (k : K) (rows cols : Nat) (h : Mem K) : Res (Mem K) :=
  forUpM 0 rows (fun i h => zRawVecMulDRC (m + i*cap) k cols h) h
/-- `zRawMatCatDRC`, zm_raw_mat.c:270-274. -/
def zRawMatCatDRC [Add K] [Mul K] (m1 cap1 : Nat) (k : K) (m2 cap2 rows cols : Nat) (h : Mem K) : Res (Mem K) :=
  forUpM 0 rows (fun i h => zRawVecCatDRC (m1 + i*cap1) k (m2 + i*cap2) cols h) h

/-- `zRawMatColInnerProd`, zm_raw_mat.c:301-312. -/
def zRawMatColInnerProd [Ring K] (m cap v rows col : Nat) (h : Mem K) : Res K := do
  let a ← forUpM 0 rows (fun i (a : Acc K) => do
    return a.step ((← h.rd (m+col+i*cap)) * (← h.rd (v+i)))) ⟨0, 0, 0⟩
  return a.s + a.q

/-- `zRawMatSqrNorm`, zm_raw_mat.c:315-322. -/
def zRawMatSqrNorm [Ring K] (m cap rows cols : Nat) (h : Mem K) : Res K :=
  forUpM 0 rows (fun i norm => do return norm + (← zRawVecSqrNorm (m + i*cap) cols h)) 0

/-- `zRawMatT`, zm_raw_mat.c:325-329. -/
def zRawMatT (m cap tm tcap rows cols : Nat) (h : Mem K) : Res (Mem K) :=
  forUpM 0 cols (fun j h => zRawMatGetCol (m + j) cap rows 0 (tm + j*tcap) h) h

/-- `_zRawMatTDRCPrevIndex`, zm_raw_mat.c:332-335. -/
def _zRawMatTDRCPrevIndex (index rowcap colcap : Nat) : Nat := (index % rowcap) * colcap + index / rowcap

/-- Body of the outer loop of `zRawMatTDRC`, zm_raw_mat.c:346-356.  `fuel` bounds the two `while` loops
(`fail` = not finished within the budget). -/
def zRawMatTDRCBody (fuel mat rowcap colcap i : Nat) (h : Mem K) : Res (Mem K) :=
  (whileM fuel (fun p => decide (p > i)) (fun p => .ok (_zRawMatTDRCPrevIndex p rowcap colcap))
    (_zRawMatTDRCPrevIndex i rowcap colcap)).bind fun prev =>
  if prev ≠ i then .ok h
  else (h.rd (mat + i)).bind fun tmp =>
    (whileM fuel (fun (s : Nat × Nat × Mem K) => decide (s.2.1 ≠ i))
      (fun s => do
        let h ← s.2.2.wr (mat + s.1) (← s.2.2.rd (mat + s.2.1))
        return (s.2.1, _zRawMatTDRCPrevIndex s.2.1 rowcap colcap, h))
      (i, _zRawMatTDRCPrevIndex i rowcap colcap, h)).bind fun s =>
    s.2.2.wr (mat + s.1) tmp

/-- `zRawMatTDRC`, zm_raw_mat.c:338-358. -/
def zRawMatTDRC (fuel mat rowcap colcap : Nat) (h : Mem K) : Res (Mem K) :=
  if rowcap * colcap ≤ 1 then .ok h
  else forUpM 0 (rowcap * colcap) (zRawMatTDRCBody fuel mat rowcap colcap) h

/-- `zRawMatTrace`, zm_raw_mat.c:361-374. -/
def zRawMatTrace [Ring K] (m cap rows cols : Nat) (h : Mem K) : Res K := do
  let a ← forUpM 0 (min rows cols) (fun i (a : Acc K) => do return a.step (← h.rd (m + i*(cap+1)))) ⟨0, 0, 0⟩
  return a.s + a.q

/-- `zRawMulMatVec`, zm_raw_mat.c:377-381. -/
def zRawMulMatVec [Ring K] (m cap v rows cols mv : Nat) (h : Mem K) : Res (Mem K) :=
  forUpM 0 rows (fun i h => do h.wr (mv + i) (← zRawVecInnerProd (m + i*cap) v cols h)) h

/-- `zRawMulMatTVec`, zm_raw_mat.c:384-390. -/
def zRawMulMatTVec [Ring K] (m cap v rows cols mv : Nat) (h : Mem K) : Res (Mem K) :=
  forUpM 0 cols (fun i h => do h.wr (mv + i) (← zRawMatColInnerProd m cap v rows i h)) h

/-- `zRawMulMatMat`, zm_raw_mat.c:393-398. -/
def zRawMulMatMat [Ring K] (m1 cap1 rows1 m2 cap2 rows2 cols2 m cap3 : Nat) (h : Mem K) : Res (Mem K) :=
  forUpM 0 rows1 (fun i h => zRawMulMatTVec m2 cap2 (m1 + i*cap1) rows2 cols2 (m + i*cap3) h) h

/-- `zRawMulMatMatT`, zm_raw_mat.c:401-406. -/
def zRawMulMatMatT [Ring K] (m1 cap1 rows1 m2 cap2 rows2 cols2 m cap3 : Nat) (h : Mem K) : Res (Mem K) :=
  forUpM 0 rows1 (fun i h => zRawMulMatVec m2 cap2 (m1 + i*cap1) rows2 cols2 (m + i*cap3) h) h

/-- `zRawMulMatTMat`, zm_raw_mat.c:409-420. -/
def zRawMulMatTMat [Ring K] (m1 cap1 rows1 cols1 m2 cap2 cols2 m cap3 : Nat) (h : Mem K) : Res (Mem K) :=
  forUpM 0 cols1 (fun k h =>
    forUpM 0 cols2 (fun i h => do
      let h ← h.wr (m + k*cap3 + i) 0
      forUpM 0 rows1 (fun j h => do
        h.wr (m + k*cap3 + i) ((← h.rd (m + k*cap3 + i)) +
          (← h.rd (m1 + k + j*cap1)) * (← h.rd (m2 + i + j*cap2)))) h) h) h

/-- `zRawVecDyad`, zm_raw_mat.c:423-432. -/
def zRawVecDyad [Mul K] (v1 size1 v2 size2 dyad cap : Nat) (h : Mem K) : Res (Mem K) :=
  forUpM 0 size1 (fun i h =>
    forUpM 0 size2 (fun j h => do h.wr (dyad + i*cap + j) ((← h.rd (v1+i)) * (← h.rd (v2+j)))) h) h

/-- `zRawMatAddDyad`, zm_raw_mat.c:435-444. -/
def zRawMatAddDyad [Add K] [Mul K] (m cap v1 size1 v2 size2 : Nat) (h : Mem K) : Res (Mem K) :=
  forUpM 0 size1 (fun i h => forUpM 0 size2 (fun j h => do
    h.wr (m + i*cap + j) ((← h.rd (m + i*cap + j)) + (← h.rd (v1+i)) * (← h.rd (v2+j)))) h) h

/-- `zRawMatSubDyad`, zm_raw_mat.c:447-456. -/
def zRawMatSubDyad [Sub K] [Mul K] (m cap v1 size1 v2 size2 : Nat) (h : Mem K) : Res (Mem K) :=
  forUpM 0 size1 (fun i h => forUpM 0 size2 (fun j h => do
    h.wr (m + i*cap + j) ((← h.rd (m + i*cap + j)) - (← h.rd (v1+i)) * (← h.rd (v2+j)))) h) h

/-- `zRawMatCatDyad`, zm_raw_mat.c:459-468. -/
def zRawMatCatDyad [Add K] [Mul K] (m cap : Nat) (k : K) (v1 size1 v2 size2 : Nat) (h : Mem K) : Res (Mem K) :=
  forUpM 0 size1 (fun i h => forUpM 0 size2 (fun j h => do
    h.wr (m + i*cap + j) ((← h.rd (m + i*cap + j)) + k * (← h.rd (v1+i)) * (← h.rd (v2+j)))) h) h

end Zm.RawMat

namespace Zm.Mat
open Zm RawVec RawMat Vec
variable {K : Type*}

/-- A matrix object (`zMat`, a ZEDA two-dimensional array): buffer, capacities and sizes (zm_mat.h:20-90). -/
structure MatRef where
  buf : Nat
  rowcap : Nat
  colcap : Nat
  rows : Nat
  cols : Nat

/-- `zMatSizeEqual`, zm_mat.h:63. -/
def zMatSizeEqual (a b : MatRef) : Bool := a.rows == b.rows && a.cols == b.cols

/-- `zMatAdd`, zm_mat.c:511-515 and 553-560. -/
def zMatAdd [Add K] (m1 m2 m : MatRef) (h : Mem K) : Res (Mem K × Bool) :=
  if !zMatSizeEqual m1 m2 || !zMatSizeEqual m1 m then .ok (h, false)
  else do return (← zRawMatAdd m1.buf m1.colcap m2.buf m2.colcap m.buf m.colcap m.rows m.cols h, true)

/-- `zMatSub`, zm_mat.c:518-522 and 563-570. -/
def zMatSub [Sub K] (m1 m2 m : MatRef) (h : Mem K) : Res (Mem K × Bool) :=
  if !zMatSizeEqual m1 m2 || !zMatSizeEqual m1 m then .ok (h, false)
  else do return (← zRawMatSub m1.buf m1.colcap m2.buf m2.colcap m.buf m.colcap m.rows m.cols h, true)

/-- `zMatDiv`, zm_mat.c:539-543 and 593-604. -/
def zMatDiv [Field K] [LinearOrder K] (tol : K) (m1 : MatRef) (k : K) (m : MatRef) (h : Mem K) : Res (Mem K × Bool) :=
  if !zMatSizeEqual m1 m then .ok (h, false)
  else if Misc.zIsTol k tol then .ok (h, false)
  else do return (← zRawMatDiv m1.buf m1.colcap k m.buf m.colcap m.rows m.cols h, true)

/-- `zMatGet`, zm_mat.c:201-216, for non-negative positions. -/
def zMatGet (src : MatRef) (r c : Nat) (dest : MatRef) (h : Mem K) : Res (Mem K × Bool) :=
  if r + dest.rows > src.rows ∨ c + dest.cols > src.cols then .ok (h, false)
  else do return (← zRawMatGet src.buf src.colcap src.rows src.cols r c dest.buf dest.colcap dest.rows dest.cols h, true)

/-- `zMatPut`, zm_mat.c:237-252, for non-negative positions. -/
def zMatPut (dest : MatRef) (r c : Nat) (src : MatRef) (h : Mem K) : Res (Mem K × Bool) :=
  if r + src.rows > dest.rows ∨ c + src.cols > dest.cols then .ok (h, false)
  else do return (← zRawMatPut dest.buf dest.colcap dest.rows dest.cols r c src.buf src.colcap src.rows src.cols h, true)

/-- `zMatTDRC`, zm_mat.c:655-666: transposes the whole buffer (by capacities) and swaps capacities and sizes. -/
def zMatTDRC (fuel : Nat) (m : MatRef) (h : Mem K) : Res (Mem K × MatRef) :=
  (zRawMatTDRC fuel m.buf m.rowcap m.colcap h).bind fun h =>
  .ok (h, { m with rowcap := m.colcap, colcap := m.rowcap, rows := m.cols, cols := m.rows })

/-- `zMulMatVec`, zm_mat.c:764-768 and 802-809. -/
def zMulMatVec [Ring K] (m : MatRef) (v1 v : VecRef) (h : Mem K) : Res (Mem K × Bool) :=
  if m.cols ≠ v1.size ∨ m.rows ≠ v.size then .ok (h, false)
  else do return (← zRawMulMatVec m.buf m.colcap v1.buf m.rows m.cols v.buf h, true)

/-- `zMulMatMat`, zm_mat.c:778-783 and 822-830. -/
def zMulMatMat [Ring K] (m1 m2 m : MatRef) (h : Mem K) : Res (Mem K × Bool) :=
  if m2.rows ≠ m1.cols ∨ m1.rows ≠ m.rows ∨ m2.cols ≠ m.cols then .ok (h, false)
  else do return (← zRawMulMatMat m1.buf m1.colcap m1.rows m2.buf m2.colcap m2.rows m2.cols m.buf m.colcap h, true)

/-- `zMulMatVecDRC`, zm_mat.c:856-865.  The temporary vector of `zVecAlloc` is modelled as `v.size` cells at the
address `tmp` that are zero (ZEDA's allocator clears memory); the failure of `zMulMatVec` is not examined and the
function returns `v`. -/
def zMulMatVecDRC [Ring K] (m : MatRef) (v : VecRef) (tmp : Nat) (h : Mem K) : Res (Mem K × Bool) := do
  let h ← zRawVecSetAll tmp v.size 0 h
  let (h, _) ← zMulMatVec m v ⟨tmp, v.size⟩ h
  let h ← zRawVecCopy tmp v.buf v.size h
  return (h, true)

/-- `zMatInfNorm`, zm_mat.c:623-635: walks the buffer contiguously. -/
def zMatInfNorm [Ring K] [LinearOrder K] (m : MatRef) (h : Mem K) : Res K := do
  let s ← forUpM 0 m.rows (fun _ (s : K × Nat) => do
    let (rs, mp) ← forUpM 0 m.cols (fun _ (t : K × Nat) => do return (t.1 + |← h.rd t.2|, t.2 + 1)) (0, s.2)
    return (if rs > s.1 then rs else s.1, mp)) (0, m.buf)
  return s.1

/-- `zMatShift`, zm_mat.c:391-397: the loop runs over the rows. -/
def zMatShift [Add K] (m : MatRef) (shift : K) (h : Mem K) : Res (Mem K) :=
  forUpM 0 m.rows (fun i h => do
    h.wr (m.buf + i*m.colcap + i) ((← h.rd (m.buf + i*m.colcap + i)) + shift)) h

end Zm.Mat
