import Verif.Model.Stat
import Verif.Model.IP
import Verif.Model.LE

/-! # zm_data.c: sorting, selection, median, smoothing with the polynomials themselves, peaks of the smoothed data

`zQuickSort` and `zQuickSelect` are functions of ZEDA.  They are parameters: `sort cmp l` is the array after sorting, `select cmp l k` the element the returned
pointer points to (`none` for NULL).  What is assumed of them is said in the theorems (`SortOk`, `SelectOk`).  NAN is `none`. -/

namespace Zm.Data
open Zm

section
variable {K : Type*} [Field K] [LinearOrder K]

/-- `_zDataSortCmp`, zm_data.c:45-50. -/
def sortCmp (a b : K) : Int := if b < a then 1 else if a < b then -1 else 0

/-- `zDataSort`, zm_data.c:53-57. -/
def zDataSort (sort : (K → K → Int) → List K → List K) (data : List K) : List K := sort sortCmp data

/-- `_zDataSortIndexCmp`, zm_data.c:60-65. -/
def sortIndexCmp (data : Nat → K) (i j : Nat) : Int := if data j < data i then 1 else if data i < data j then -1 else 0

/-- `zDataSortIndex`, zm_data.c:68-76.  An element of the index behind the data is `ub` (the code would read it, if there are two elements to compare). -/
def zDataSortIndex (sort : (Nat → Nat → Int) → List Nat → List Nat) (data : Nat → K) (size : Nat) (index : List Nat) : Res (List Nat) :=
  if size ≠ index.length then .fail
  else if index.any (fun i => decide (size ≤ i)) then .ub
  else .ok (sort (sortIndexCmp data) index)

/-- `_zDataSortAbsIndexCmp`, zm_data.c:79-88. -/
def sortAbsIndexCmp (data : Nat → K) (i j : Nat) : Int := if |data j| < |data i| then 1 else if |data i| < |data j| then -1 else 0

/-- `zDataSortAbsIndex`, zm_data.c:91-99. -/
def zDataSortAbsIndex (sort : (Nat → Nat → Int) → List Nat → List Nat) (data : Nat → K) (size : Nat) (index : List Nat) : Res (List Nat) :=
  if size ≠ index.length then .fail
  else if index.any (fun i => decide (size ≤ i)) then .ub
  else .ok (sort (sortAbsIndexCmp data) index)

/-- `_zVecSortCmp`, zm_vec.c:226-234. -/
def vecSortCmp (v : Nat → K) (i j : Nat) : Int :=
  let d := v i - v j
  if 0 < d then 1 else if d < 0 then -1 else 0

/-- `zVecSort`, zm_vec.c:237-244: the index comes back as it was if the sizes differ. -/
def zVecSort (sort : (Nat → Nat → Int) → List Nat → List Nat) (v : Nat → K) (size : Nat) (index : List Nat) : Res (List Nat) :=
  if size ≠ index.length then .ok index
  else if index.any (fun i => decide (size ≤ i)) then .ub
  else .ok (sort (vecSortCmp v) index)

/-- `zDataSelect`, zm_data.c:102-118; `zAlloc` of no elements is NULL. -/
def zDataSelect (select : (Nat → Nat → Int) → List Nat → Int → Option Nat) (data : Nat → K) (size : Nat) (order : Int) : Option K :=
  if size = 0 then none
  else (select (sortIndexCmp data) (List.range size) order).map data

/-- `zDataMedian`, zm_data.c:121-130. -/
def zDataMedian (select : (Nat → Nat → Int) → List Nat → Int → Option Nat) (data : Nat → K) (size : Nat) : Option K :=
  if size % 2 = 1 then zDataSelect select data size (((size : Int) - 1) / 2)
  else (zDataSelect select data size ((size : Int) / 2 - 1)).bind fun m1 =>
    (zDataSelect select data size ((size : Int) / 2)).map fun m2 => 1 / 2 * (m1 + m2)

/-- `zPexIPCreateLSM` as `_zDataSmoothSG` calls it, zm_ip_pex.c:59-94 with `term = w-1` and the time stamps `0, …, w-1`: the result of `zLESolveGauss` is not examined, and
the new polynomial is zero where it fails. -/
def lsmFit (w dim : Nat) (u : Nat → K) : Option (Nat → K) :=
  match LE.zLESolveGauss 0 (dim + 1) (IP.pexLSM w (dim + 1) ((w : K) - 1) (fun i => (i : K)) u).1 (IP.pexLSM w (dim + 1) ((w : K) - 1) (fun i => (i : K)) u).2 (fun _ => 0) with
  | .ok c => some c
  | _ => some (fun _ => 0)

/-- `zDataSmoothSG`, zm_data.c:173-176, and the allocations in `_zDataSmoothSG`, zm_data.c:142-146: for `w = 1` the term is zero, `zPexIPAlloc` fails before it has set
the pointer that `zPexIPFree` then frees. -/
def zDataSmoothSG (src : Nat → K) (size w dim : Nat) (dest : Nat → K) : Res (Nat → K) :=
  if w = 1 then .ub
  else Stat.smoothSG (lsmFit w dim) (fun c i => IP.pexIPVal (dim + 1) c ((w : K) - 1) (i : K)) src size w dest

/-- `zDataSmoothVelSG`, zm_data.c:179-182. -/
def zDataSmoothVelSG (src : Nat → K) (size w dim : Nat) (dest : Nat → K) : Res (Nat → K) :=
  if w = 1 then .ub
  else Stat.smoothSG (lsmFit w dim) (fun c i => IP.pexIPVel (dim + 1) c ((w : K) - 1) (i : K)) src size w dest

/-- The loop of `zDataPeakSG`, zm_data.c:195-198: the list, last found first. -/
def peaksOf (g : Nat → K) (size : Nat) : List Nat :=
  forUp 1 (size - 1) (fun i l => if 0 < g (i - 1) ∧ g i < 0 then i :: l else l) []

/-- `zDataPeakSG`, zm_data.c:185-204.  Where the smoothing fails the list was never initialised and is destroyed nevertheless. -/
def zDataPeakSG (src : Nat → K) (size w dim : Nat) : Res (List Nat) :=
  if size = 0 then .fail
  else match zDataSmoothVelSG src size w dim (fun _ => 0) with
    | .ok g => .ok (peaksOf g size)
    | .fail => .ub
    | .ub => .ub

end
end Zm.Data
