import Verif.Model.RawMat
import Verif.Model.Stat

/-!
# Model of the rest of `src/zm_vec.c` and `src/zm_mat.c`

The memory model is that of Model/RawVec.lean and Model/RawMat.lean: one block for all operands, `ub` for an access outside of it.  Where a position may be
negative it is an integer, and the address in front of the buffer is `ub`: forming it is undefined in C.  Functions that return NULL on failure
report it in the second component.  Tests and searches, which do not write, read the elements through functions.
-/

namespace Zm.Vec
open Zm RawVec
variable {K : Type*}

/-- `zVecDem`, zm_vec.c:436-440 and 364-368. -/
def zVecDem [Div K] (v1 dem v : VecRef) (m : Mem K) : Res (Mem K × Bool) := check3 v1 dem v m (zRawVecDem v1.buf dem.buf v.buf v.size m)

/-- `zVecCatDRC`, zm_vec.h: `zVecCat` with the first operand as the destination. -/
def zVecCatDRC [Add K] [Mul K] (v : VecRef) (k : K) (v2 : VecRef) (m : Mem K) : Res (Mem K × Bool) := zVecCat v k v2 v m

/-- `_zVecCats` and `zVecCats`, zm_vec.c:452-476; the list is that of the variable arguments.  A vector of another size is reported and refused by `zVecCatDRC`. -/
def zVecCats [Add K] [Mul K] (v : VecRef) : List (K × VecRef) → Mem K → Res (Mem K)
  | [], m => .ok m
  | (k, w) :: l, m => (zVecCatDRC v k w m).bind fun r => zVecCats v l r.1

/-- `zVecLinearSum`, zm_vec.c:479-488. -/
def zVecLinearSum [Add K] [Mul K] [Zero K] (v : VecRef) (l : List (K × VecRef)) (m : Mem K) : Res (Mem K) :=
  (zRawVecSetAll v.buf v.size 0 m).bind fun m => zVecCats v l m

/-- `zVecShift`, zm_vec.c:202-206. -/
def zVecShift [Add K] (src : VecRef) (s : K) (dest : VecRef) (m : Mem K) : Res (Mem K) := zRawVecShift src.buf src.size s dest.buf m

/-- `zVecInterDiv`, zm_vec.c:491-495. -/
def zVecInterDiv [Ring K] (v1 v2 : VecRef) (ratio : K) (v : VecRef) (m : Mem K) : Res (Mem K) := zRawVecInterDiv v1.buf v2.buf ratio v.buf v.size m

/-- `zVecMid`, zm_vec.c:505-509. -/
def zVecMid [Field K] (v1 v2 v : VecRef) (m : Mem K) : Res (Mem K) := zRawVecMid v1.buf v2.buf v.buf v.size m

/-- `zVecScale`, zm_vec.c:512-516. -/
def zVecScale [Ring K] (src lo hi dest : VecRef) (m : Mem K) : Res (Mem K) := zRawVecScale src.buf lo.buf hi.buf dest.buf src.size m

/-- `zVecScaleUniform`, zm_vec.c:519-523. -/
def zVecScaleUniform [Ring K] (src : VecRef) (lo hi : K) (dest : VecRef) (m : Mem K) : Res (Mem K) :=
  zRawVecScaleUniform src.buf lo hi dest.buf src.size m

/-- `zVecWSqrNorm`, zm_vec.c:548-561: 0 on size mismatch. -/
def zVecWSqrNorm [Ring K] (v w : VecRef) (m : Mem K) : Res K := if !zVecSizeEqual v w then .ok 0 else zRawVecWSqrNorm v.buf w.buf v.size m

/-- `zVecNormalize`, zm_vec.c:570-573, with `zRawVecNormalize`, zm_raw_vec.c:301-312; `sqrt` is the square root, `tol` is `zTOL`. -/
def zVecNormalize [Field K] [LinearOrder K] (sqrt : K → K) (tol : K) (src dest : VecRef) (m : Mem K) : Res (Mem K × Bool) :=
  (zRawVecSqrNorm src.buf src.size m).bind fun s =>
  if Misc.zIsTol (sqrt s) tol then .ok (m, false)
  else (zRawVecMul src.buf (1 / sqrt s) dest.buf src.size m).bind fun m => .ok (m, true)

/-- `zVecReorder`, zm_vec.c:247-258.  The elements of the index are `int`s and are not examined. -/
def zVecReorder (src : VecRef) (idx : List Int) (dest : VecRef) (m : Mem K) : Res (Mem K × Bool) :=
  if !zVecSizeEqual src dest || src.size != idx.length then .ok (m, false)
  else (forUpM 0 idx.length (fun i m =>
    let k := idx.getD i 0
    if k < 0 ∨ (src.size : Int) ≤ k then .ub else (m.rd (src.buf + k.toNat)).bind fun x => m.wr (dest.buf + i) x) m).bind fun m => .ok (m, true)

/-- `zVecReorderDRC`, zm_vec.c:261-269; the clone is at `tmp`.  The failure of `zVecReorder` is not examined. -/
def zVecReorderDRC (v : VecRef) (idx : List Int) (tmp : Nat) (m : Mem K) : Res (Mem K × Bool) :=
  (zRawVecCopy v.buf tmp v.size m).bind fun m => (zVecReorder ⟨tmp, v.size⟩ idx v m).bind fun r => .ok (r.1, true)

/-- `zVecEqual`, zm_vec.c:287-291, with `zRawVecEqual`, zm_raw_vec.c:60-65: the loop returns false at the first difference. -/
def zVecEqual [Field K] [LinearOrder K] (n1 n2 : Nat) (v1 v2 : Nat → K) (tol : K) : Bool :=
  if n1 != n2 then false else (List.range n1).all fun i => Misc.zEqual (.fin (v1 i)) (.fin (v2 i)) tol

/-- `zVecMatch`, zm_vec.c:294-298, with `zRawVecMatch`, zm_raw_vec.c:68-73. -/
def zVecMatch [DecidableEq K] (n1 n2 : Nat) (v1 v2 : Nat → K) : Bool :=
  if n1 != n2 then false else (List.range n1).all fun i => decide (v1 i = v2 i)

/-- `zVecIsTol`, zm_vec.c:301-304, with `zRawVecIsTol`, zm_raw_vec.c:76-81. -/
def zVecIsTol [Field K] [LinearOrder K] (n : Nat) (v : Nat → K) (tol : K) : Bool := (List.range n).all fun i => Misc.zIsTol (v i) tol

/-- `zVecIsNan`, zm_vec.c:307-310, with `zRawVecIsNan`, zm_raw_vec.c:84-89. -/
def zVecIsNan (n : Nat) (v : Nat → Misc.Dbl K) : Bool :=
  (List.range n).any fun i => match v i with
    | .fin _ => false
    | _ => true

end Zm.Vec

namespace Zm.Mat
open Zm RawVec RawMat Vec
variable {K : Type*}

/-- `zMatCopy`, zm_mat.c:151-166. -/
def zMatCopy (src dest : MatRef) (h : Mem K) : Res (Mem K × Bool) :=
  if !zMatSizeEqual src dest then .ok (h, false)
  else (zRawMatCopy src.buf src.colcap dest.buf dest.colcap dest.rows dest.cols h).bind fun h => .ok (h, true)

/-- `zMatRev`, zm_mat.c:525-529 and 573-580. -/
def zMatRev [Neg K] (m1 m : MatRef) (h : Mem K) : Res (Mem K × Bool) :=
  if !zMatSizeEqual m1 m then .ok (h, false)
  else (zRawMatRev m1.buf m1.colcap m.buf m.colcap m.rows m.cols h).bind fun h => .ok (h, true)

/-- `zMatMul`, zm_mat.c:532-536 and 583-590. -/
def zMatMul [Mul K] (m1 : MatRef) (k : K) (m : MatRef) (h : Mem K) : Res (Mem K × Bool) :=
  if !zMatSizeEqual m1 m then .ok (h, false)
  else (zRawMatMul m1.buf m1.colcap k m.buf m.colcap m.rows m.cols h).bind fun h => .ok (h, true)

/-- `zMatCat`, zm_mat.c:546-550 and 607-614. -/
def zMatCat [Add K] [Mul K] (m1 : MatRef) (k : K) (m2 m : MatRef) (h : Mem K) : Res (Mem K × Bool) :=
  if !zMatSizeEqual m1 m2 || !zMatSizeEqual m1 m then .ok (h, false)
  else (zRawMatCat m1.buf m1.colcap k m2.buf m2.colcap m.buf m.colcap m.rows m.cols h).bind fun h => .ok (h, true)

/-- `zMatT`, zm_mat.c:638-652. -/
def zMatT (m tm : MatRef) (h : Mem K) : Res (Mem K × Bool) :=
  if tm.cols ≠ m.rows ∨ m.cols ≠ tm.rows then .ok (h, false)
  else (zRawMatT m.buf m.colcap tm.buf tm.colcap m.rows m.cols h).bind fun h => .ok (h, true)

/-- `zMatIdent`, zm_mat.c:99-113. -/
def zMatIdent [Zero K] [One K] (m : MatRef) (h : Mem K) : Res (Mem K × Bool) :=
  if m.rows ≠ m.cols then .ok (h, false) else (zRawMatIdent m.buf m.colcap m.rows m.cols h).bind fun h => .ok (h, true)

/-- `zMatDiag`, zm_mat.c:116-134. -/
def zMatDiag [Zero K] (m : MatRef) (d : VecRef) (h : Mem K) : Res (Mem K × Bool) :=
  if m.rows ≠ m.cols then .ok (h, false)
  else if m.cols ≠ d.size then .ok (h, false)
  else (zRawMatDiag m.buf m.colcap d.buf m.rows m.cols h).bind fun h => .ok (h, true)

/-- `zMatGetRow`, zm_mat.c:268-272 and 282-293. -/
def zMatGetRow (m : MatRef) (row : Int) (v : VecRef) (h : Mem K) : Res (Mem K × Bool) :=
  if m.cols ≠ v.size then .ok (h, false)
  else if row ≥ m.rows then .ok (h, false)
  else if row < 0 then .ub
  else (zRawMatGetRow m.buf m.colcap m.cols row.toNat v.buf h).bind fun h => .ok (h, true)

/-- `zMatGetCol`, zm_mat.c:275-279 and 296-307. -/
def zMatGetCol (m : MatRef) (col : Int) (v : VecRef) (h : Mem K) : Res (Mem K × Bool) :=
  if m.rows ≠ v.size then .ok (h, false)
  else if col ≥ m.cols then .ok (h, false)
  else if col < 0 then .ub
  else (zRawMatGetCol m.buf m.colcap m.rows col.toNat v.buf h).bind fun h => .ok (h, true)

/-- `zMatPutRow`, zm_mat.c:310-314 and 324-335. -/
def zMatPutRow (m : MatRef) (row : Int) (v : VecRef) (h : Mem K) : Res (Mem K × Bool) :=
  if m.cols ≠ v.size then .ok (h, false)
  else if row ≥ m.rows then .ok (h, false)
  else if row < 0 then .ub
  else (zRawMatPutRow m.buf m.colcap m.cols row.toNat v.buf h).bind fun h => .ok (h, true)

/-- `zMatPutCol`, zm_mat.c:317-321 and 338-349. -/
def zMatPutCol (m : MatRef) (col : Int) (v : VecRef) (h : Mem K) : Res (Mem K × Bool) :=
  if m.rows ≠ v.size then .ok (h, false)
  else if col ≥ m.cols then .ok (h, false)
  else if col < 0 then .ub
  else (zRawMatPutCol m.buf m.colcap m.rows col.toNat v.buf h).bind fun h => .ok (h, true)

/-- `zMatSwapRow`, zm_mat.c:352-367. -/
def zMatSwapRow (m : MatRef) (row1 row2 : Int) (h : Mem K) : Res (Mem K × Bool) :=
  if row1 ≥ m.rows ∨ row2 ≥ m.rows then .ok (h, false)
  else if row1 < 0 ∨ row2 < 0 then .ub
  else (zRawMatSwapRow m.buf m.colcap m.cols row1.toNat row2.toNat h).bind fun h => .ok (h, true)

/-- `zMatSwapCol`, zm_mat.c:370-385. -/
def zMatSwapCol (m : MatRef) (col1 col2 : Int) (h : Mem K) : Res (Mem K × Bool) :=
  if col1 ≥ m.cols ∨ col2 ≥ m.cols then .ok (h, false)
  else if col1 < 0 ∨ col2 < 0 then .ub
  else (zRawMatSwapCol m.buf m.colcap m.rows col1.toNat col2.toNat h).bind fun h => .ok (h, true)

/-- `zMatTGet`, zm_mat.c:219-234, for non-negative positions. -/
def zMatTGet (src : MatRef) (r c : Nat) (dest : MatRef) (h : Mem K) : Res (Mem K × Bool) :=
  if r + dest.cols > src.rows ∨ c + dest.rows > src.cols then .ok (h, false)
  else (zRawMatTGet src.buf src.colcap src.rows src.cols r c dest.buf dest.colcap dest.rows dest.cols h).bind fun h => .ok (h, true)

/-- `zMatTPut`, zm_mat.c:255-265, for non-negative positions. -/
def zMatTPut (dest : MatRef) (r c : Nat) (src : MatRef) (h : Mem K) : Res (Mem K × Bool) :=
  if r + src.cols > dest.rows ∨ c + src.rows > dest.cols then .ok (h, false)
  else (zRawMatTPut dest.buf dest.colcap dest.rows dest.cols r c src.buf src.colcap src.rows src.cols h).bind fun h => .ok (h, true)

/-- `zVecDyad`, zm_mat.c:680-694. -/
def zVecDyad [Mul K] (v1 v2 : VecRef) (m : MatRef) (h : Mem K) : Res (Mem K × Bool) :=
  if v1.size ≠ m.rows ∨ v2.size ≠ m.cols then .ok (h, false)
  else (zRawVecDyad v1.buf v1.size v2.buf v2.size m.buf m.colcap h).bind fun h => .ok (h, true)

/-- `zMatAddDyad`, zm_mat.c:697-711. -/
def zMatAddDyad [Add K] [Mul K] (m : MatRef) (v1 v2 : VecRef) (h : Mem K) : Res (Mem K × Bool) :=
  if v1.size ≠ m.rows ∨ v2.size ≠ m.cols then .ok (h, false)
  else (zRawMatAddDyad m.buf m.colcap v1.buf v1.size v2.buf v2.size h).bind fun h => .ok (h, true)

/-- `zMatSubDyad`, zm_mat.c:714-728. -/
def zMatSubDyad [Sub K] [Mul K] (m : MatRef) (v1 v2 : VecRef) (h : Mem K) : Res (Mem K × Bool) :=
  if v1.size ≠ m.rows ∨ v2.size ≠ m.cols then .ok (h, false)
  else (zRawMatSubDyad m.buf m.colcap v1.buf v1.size v2.buf v2.size h).bind fun h => .ok (h, true)

/-- `zMatCatDyad`, zm_mat.c:731-745. -/
def zMatCatDyad [Add K] [Mul K] (m : MatRef) (k : K) (v1 v2 : VecRef) (h : Mem K) : Res (Mem K × Bool) :=
  if v1.size ≠ m.rows ∨ v2.size ≠ m.cols then .ok (h, false)
  else (zRawMatCatDyad m.buf m.colcap k v1.buf v1.size v2.buf v2.size h).bind fun h => .ok (h, true)

/-- `zMatTrace`, zm_mat.c:748-761: 0 if the matrix is not square. -/
def zMatTrace [Ring K] (m : MatRef) (h : Mem K) : Res K :=
  if m.rows ≠ m.cols then .ok 0 else zRawMatTrace m.buf m.colcap m.rows m.cols h

/-- `zMulMatTVec`, zm_mat.c:771-775 and 812-819. -/
def zMulMatTVec [Ring K] (m : MatRef) (v1 v : VecRef) (h : Mem K) : Res (Mem K × Bool) :=
  if m.rows ≠ v1.size ∨ m.cols ≠ v.size then .ok (h, false)
  else (zRawMulMatTVec m.buf m.colcap v1.buf m.rows m.cols v.buf h).bind fun h => .ok (h, true)

/-- `zMulMatMatT`, zm_mat.c:786-791 and 833-841. -/
def zMulMatMatT [Ring K] (m1 m2 m : MatRef) (h : Mem K) : Res (Mem K × Bool) :=
  if m1.cols ≠ m2.cols ∨ m1.rows ≠ m.rows ∨ m2.rows ≠ m.cols then .ok (h, false)
  else (zRawMulMatMatT m1.buf m1.colcap m1.rows m2.buf m2.colcap m2.rows m2.cols m.buf m.colcap h).bind fun h => .ok (h, true)

/-- `zMulMatTMat`, zm_mat.c:794-799 and 844-852. -/
def zMulMatTMat [Ring K] (m1 m2 m : MatRef) (h : Mem K) : Res (Mem K × Bool) :=
  if m1.rows ≠ m2.rows ∨ m1.cols ≠ m.rows ∨ m2.cols ≠ m.cols then .ok (h, false)
  else (zRawMulMatTMat m1.buf m1.colcap m1.rows m1.cols m2.buf m2.colcap m2.cols m.buf m.colcap h).bind fun h => .ok (h, true)

/-- `zMulMatTVecDRC`, zm_mat.c:868-877: as `zMulMatVecDRC`. -/
def zMulMatTVecDRC [Ring K] (m : MatRef) (v : VecRef) (tmp : Nat) (h : Mem K) : Res (Mem K × Bool) :=
  (zRawVecSetAll tmp v.size 0 h).bind fun h =>
  (zMulMatTVec m v ⟨tmp, v.size⟩ h).bind fun r =>
  (zRawVecCopy tmp v.buf v.size r.1).bind fun h => .ok (h, true)

/-- Position and value of an element. -/
structure Found (K : Type*) where
  val : K
  row : Nat
  col : Nat

/-- The body of the loop of `ZM_MAT_DEF_ELEM_SEARCH_METHOD`, zm_mat.c:403-410, for a row whose best element is `r`; `none` is the initial NaN, which
`zIsMax` and the others (zm_misc.h:43-57) let any number replace. -/
def searchStep (better : K → K → Bool) (i : Nat) (r : K × Nat) : Option (Found K) → Option (Found K)
  | none => some ⟨r.1, i, r.2⟩
  | some b => if better r.1 b.val then some ⟨r.1, i, r.2⟩ else some b

/-- `ZM_MAT_DEF_ELEM_SEARCH_METHOD`, zm_mat.c:399-412.  For a matrix without columns the search in a row reads its first element all the same. -/
def search (data : (Nat → K) → Nat → K × Nat) (better : K → K → Bool) (rows cols : Nat) (m : Nat → Nat → K) : Res (Option (Found K)) :=
  if 0 < rows ∧ cols = 0 then .ub else .ok (forUp 0 rows (fun i s => searchStep better i (data (m i) cols) s) none)

/-- `zMatElemMax`, zm_mat.c:414. -/
def zMatElemMax [LinearOrder K] (rows cols : Nat) (m : Nat → Nat → K) := search Stat.zDataMax (fun a b => decide (a > b)) rows cols m
/-- `zMatElemMin`, zm_mat.c:415. -/
def zMatElemMin [LinearOrder K] (rows cols : Nat) (m : Nat → Nat → K) := search Stat.zDataMin (fun a b => decide (a < b)) rows cols m
/-- `zMatElemAbsMax`, zm_mat.c:416. -/
def zMatElemAbsMax [Field K] [LinearOrder K] (rows cols : Nat) (m : Nat → Nat → K) := search Stat.zDataAbsMax (fun a b => decide (|a| > |b|)) rows cols m
/-- `zMatElemAbsMin`, zm_mat.c:417. -/
def zMatElemAbsMin [Field K] [LinearOrder K] (rows cols : Nat) (m : Nat → Nat → K) := search Stat.zDataAbsMin (fun a b => decide (|a| < |b|)) rows cols m

/-- Two nested loops that return false at the first element that fails a test. -/
def allElem (rows cols : Nat) (p : Nat → Nat → Bool) : Bool := (List.range rows).all fun i => (List.range cols).all fun j => p i j

/-- `zMatEqual`, zm_mat.c:420-429; the sizes of the two matrices are pairs. -/
def zMatEqual [Field K] [LinearOrder K] (s1 s2 : Nat × Nat) (m1 m2 : Nat → Nat → K) (tol : K) : Bool :=
  if s1 != s2 then false else allElem s1.1 s1.2 fun i j => Misc.zEqual (.fin (m1 i j)) (.fin (m2 i j)) tol

/-- `zMatMatch`, zm_mat.c:432-441. -/
def zMatMatch [DecidableEq K] (s1 s2 : Nat × Nat) (m1 m2 : Nat → Nat → K) : Bool :=
  if s1 != s2 then false else allElem s1.1 s1.2 fun i j => decide (m1 i j = m2 i j)

/-- `zMatIsTol`, zm_mat.c:444-447, with `zRawMatIsTol`, zm_raw_mat.c:44-49. -/
def zMatIsTol [Field K] [LinearOrder K] (s : Nat × Nat) (m : Nat → Nat → K) (tol : K) : Bool := allElem s.1 s.2 fun i j => Misc.zIsTol (m i j) tol

/-- `zMatIsDiag`, zm_mat.c:450-460. -/
def zMatIsDiag [Field K] [LinearOrder K] (s : Nat × Nat) (m : Nat → Nat → K) (tol : K) : Bool :=
  allElem s.1 s.2 fun i j => if j = i then true else Misc.zIsTol (m i j) tol

/-- `zMatIsIdent`, zm_mat.c:463-475. -/
def zMatIsIdent [Field K] [LinearOrder K] (s : Nat × Nat) (m : Nat → Nat → K) (tol : K) : Bool :=
  allElem s.1 s.2 fun i j => if j = i then Misc.zEqual (.fin (m i j)) (.fin 1) tol else Misc.zIsTol (m i j) tol

/-- `zMatIsSymmetric`, zm_mat.c:478-487. -/
def zMatIsSymmetric [DecidableEq K] (s : Nat × Nat) (m : Nat → Nat → K) : Bool :=
  if s.1 != s.2 then false else (List.range s.1).all fun i => (List.range' (i + 1) (s.1 - (i + 1))).all fun j => decide (m i j = m j i)

end Zm.Mat
