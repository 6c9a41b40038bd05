import Verif.Base.Fn
import Verif.Model.Misc
import Verif.Model.Container
import Mathlib.Algebra.Order.Field.Basic
import Mathlib.Algebra.Order.Floor.Ring
import Mathlib.Analysis.SpecialFunctions.Exp

/-! # Statistics: extremes, moments, histograms, peaks, smoothing windows, distributions

Models of `src/zm_stat.c`, `src/zm_stat_histogram.c`, `src/zm_mva.c` (moments) and `src/zm_data.c` (peaks, windows of the smoothing filter).
`double` is an exact ordered field.  Data are functions on the index of which the first `size` values exist.
-/

namespace Zm.Stat
open Zm

section
variable {K : Type*} [Field K] [LinearOrder K]

/-- `zDataMax`, zm_stat.c:77-89: value and index. -/
def zDataMax (data : Nat → K) (size : Nat) : K × Nat :=
  forUp 1 size (fun i (s : K × Nat) => if data i > s.1 then (data i, i) else s) (data 0, 0)

/-- `zDataMin`, zm_stat.c:92-104. -/
def zDataMin (data : Nat → K) (size : Nat) : K × Nat :=
  forUp 1 size (fun i (s : K × Nat) => if data i < s.1 then (data i, i) else s) (data 0, 0)

/-- `zDataMinMax`, zm_stat.c:107-128: minimum and maximum with their indices. -/
def zDataMinMax (data : Nat → K) (size : Nat) : (K × Nat) × (K × Nat) :=
  forUp 0 size (fun i (s : (K × Nat) × (K × Nat)) =>
    let s := if data i < s.1.1 then ((data i, i), s.2) else s
    if data i > s.2.1 then (s.1, (data i, i)) else s) ((data 0, 0), (data 0, 0))

/-- `zDataAbsMax`, zm_stat.c:131-143. -/
def zDataAbsMax (data : Nat → K) (size : Nat) : K × Nat :=
  forUp 1 size (fun i (s : K × Nat) => let val := |data i|; if val > s.1 then (val, i) else s) (|data 0|, 0)

/-- `zDataAbsMin`, zm_stat.c:146-158. -/
def zDataAbsMin (data : Nat → K) (size : Nat) : K × Nat :=
  forUp 1 size (fun i (s : K × Nat) => let val := |data i|; if val < s.1 then (val, i) else s) (|data 0|, 0)

/-- `zDataSum`, zm_stat.c:161-173: state `(s, s_prev, q)`. -/
def zDataSum (data : Nat → K) (size : Nat) : K :=
  let t := forUp 0 size (fun i (t : K × K × K) =>
    let s := t.2.1 + data i
    let r := s - t.2.1
    (s, s, t.2.2 + (data i - r))) (0, 0, 0)
  t.1 + t.2.2

/-- `zDataMean`, zm_stat.c:176-179. -/
def zDataMean (data : Nat → K) (size : Nat) : K := zDataSum data size / (size : K)

/-- `zDataVar`, zm_stat.c:182-191. -/
def zDataVar (data : Nat → K) (size : Nat) : K :=
  let mean := zDataMean data size
  forUp 0 size (fun i r => r + (data i - mean) * (data i - mean)) 0 / (size : K)

/-- `zDataIsIncluded`, zm_stat.c:200-207 (finite data). -/
def zDataIsIncluded (data : Nat → K) (val tol : K) : Nat → Nat → Bool
  | 0, _ => false
  | fuel+1, i => if Misc.zEqual (.fin (data i)) (.fin val) tol then true else zDataIsIncluded data val tol fuel (i+1)

/-! ## Lists of vectors -/

/-- `zVecListSum`, zm_mva.c:35-43 (vectors of size `n`). -/
def zVecListSum (n : Nat) (l : List (Nat → K)) : Nat → K :=
  l.foldl (fun sum v => forUp 0 n (fun j s => set1 s j (s j + v j)) sum) (fun _ => 0)

/-- `zVecListMean`, zm_mva.c:46-50: `zVecDivDRC` refuses a divisor up to the tolerance. -/
def zVecListMean (tol : K) (n : Nat) (l : List (Nat → K)) : (Nat → K) × Bool :=
  let s := zVecListSum n l
  if |(l.length : K)| ≤ tol then (s, false)
  else (forUp 0 n (fun j s => set1 s j (s j / (l.length : K))) s, true)

/-- `zVecListVar`, zm_mva.c:53-65 (equal sizes). -/
def zVecListVar (n : Nat) (l : List (Nat → K)) (mean : Nat → K) : K :=
  l.foldl (fun var v => var + Cont.zVecSqrDist n v mean) 0 / (l.length : K)

/-- `zVecListCov`, zm_mva.c:75-101 (equal sizes). -/
def zVecListCov (tol : K) (n : Nat) (l : List (Nat → K)) (mean : Nat → K) : (Nat → Nat → K) × Bool :=
  let cov := l.foldl (fun (cov : Nat → Nat → K) d =>
    let v := fun i => d i - mean i
    forUp 0 n (fun i c => forUp 0 n (fun j c => set2 c i j (c i j + v i * v j)) c) cov) (fun _ _ => 0)
  if |(l.length : K)| ≤ tol then (cov, false)
  else (forUp 0 n (fun i c => forUp 0 n (fun j c => set2 c i j (c i j / (l.length : K))) c) cov, true)

/-- `zVecListMinMax`, zm_mva.c:11-32 (`none` is the infinite initial value). -/
def zVecListMinMax (n : Nat) (l : List (Nat → K)) : (Nat → Option K) × (Nat → Option K) :=
  l.foldl (fun s v => forUp 0 n (fun i (s : (Nat → Option K) × (Nat → Option K)) =>
    let s := match s.1 i with
      | none => (set1 s.1 i (some (v i)), s.2)
      | some m => if m > v i then (set1 s.1 i (some (v i)), s.2) else s
    match s.2 i with
      | none => (s.1, set1 s.2 i (some (v i)))
      | some m => if m < v i then (s.1, set1 s.2 i (some (v i))) else s) s) (fun _ => none, fun _ => none)

/-! ## Peaks and smoothing -/

/-- `_zDataIsPeak`, zm_data.c:11-15. -/
def isPeak (src : Nat → K) (size i : Nat) : Bool :=
  if i = 0 ∨ i + 1 ≥ size then false else decide (src i > src (i-1)) && decide (src i > src (i+1))

/-- One sample of `zDataPeak`, zm_data.c:24-38. -/
def peakStep (src : Nat → K) (size : Nat) (w : Int) (i : Nat) (l : List Nat) : List Nat :=
  if isPeak src size i then
    match l with
    | [] => [i]
    | h :: t =>
      if (i : Int) > (h : Int) + w then i :: h :: t
      else if src i > src h then i :: t
      else h :: t
  else l

/-- `zDataPeak`, zm_data.c:18-42: the list of indices, the last found first (`zIntListAdd` adds to the head). -/
def zDataPeak (src : Nat → K) (size : Nat) (w : Int) : List Nat := forUp 1 size (peakStep src size w) []

/-- One shifted window of `_zDataSmoothSG`, the loop over the inner samples: the window start, the fit and the smoothed data so far. -/
def sgStep {P : Type*} (fit : (Nat → K) → Option P) (ev : P → Int → K) (src : Nat → K) (size w : Nat) (i : Nat) (s : Nat × P × (Nat → K)) : Res (Nat × P × (Nat → K)) :=
  if size < s.1 + 1 + w then .ub
  else match fit (fun j => src (s.1 + 1 + j)) with
    | none => .fail
    | some pc => .ok (s.1 + 1, pc, set1 s.2.2 i (ev pc (((w / 2 : Nat) : Int) - 1)))

/-- `_zDataSmoothSG`, zm_data.c:133-170.  `fit` stands for `zPexIPCreateLSM` on a window of `w` values, `ev` for the evaluation of its result at a
sample position.  A window that is not inside the `size` values of `src` is `ub`. -/
def smoothSG {P : Type*} (fit : (Nat → K) → Option P) (ev : P → Int → K) (src : Nat → K) (size w : Nat) (dest : Nat → K) : Res (Nat → K) :=
  if w = 0 then .fail
  else if size < w then .ub
  else match fit src with
    | none => .fail
    | some pc =>
      let wh := w / 2
      let nw := size - wh
      let dest := forUp 0 wh (fun i d => set1 d i (ev pc i)) dest
      (forUpM wh nw (sgStep fit ev src size w) (0, pc, dest)).bind fun s =>
      .ok (forUp (max wh nw) size (fun i d => set1 d i (ev s.2.1 ((i : Int) - nw + wh))) s.2.2)

/-! ## Distributions -/

/-- `zBinDistrib`, zm_stat.c:40-43 (`0 ≤ x ≤ n`). -/
def zBinDistrib (x n : Nat) (p : K) : K := Misc.zCombination (n : Int) (x : Int) * p ^ x * (1 - p) ^ (n - x)

end

/-- The case of an even number of degrees of freedom in `zChi2CumDistrib`, zm_stat.c:68-71: `k = 2 m`, `i` counts in steps of two. -/
noncomputable def chi2CumEven (x : ℝ) (m : Nat) : ℝ :=
  let t := Real.exp (-(1/2) * x)
  1 - (forUp 1 m (fun i (s : ℝ × ℝ) => let t := s.2 * (x / ((2 * i : Nat) : ℝ)); (s.1 + t, t)) (t, t)).1

/-! ## Histogram -/

section
variable {K : Type*} [Field K] [LinearOrder K] [FloorRing K]

/-- Conversion of `double` to `int`: truncation; out of range is undefined. -/
def toInt (x : K) : Res Int :=
  let i : Int := if 0 ≤ x then ⌊x⌋ else ⌈x⌉
  if -2147483648 ≤ i ∧ i ≤ 2147483647 then .ok i else .ub

/-- `zHistogram`: `num` bins over a range. -/
structure Hist (K : Type*) where
  min : K
  max : K
  num : Nat
  bin : Nat → Nat

/-- `zHistogramVote`, zm_stat_histogram.c:31-38 (an empty range divides by zero). -/
def zHistogramVote (h : Hist K) (val : K) : Res (Hist K) :=
  if h.max - h.min = 0 then .ub
  else (toInt ((val - h.min) / (h.max - h.min) * (h.num : K))).bind fun i =>
    let i : Int := if i < 0 then 0 else if i > (h.num : Int) - 1 then (h.num : Int) - 1 else i
    if 0 ≤ i ∧ i < h.num then .ok { h with bin := set1 h.bin i.toNat (h.bin i.toNat + 1) } else .ub

/-- `zHistogramCreate`, zm_stat_histogram.c:41-50 with `zHistogramAllocBin`, zm_stat_histogram.c:12-22 (no bins: allocation fails). -/
def zHistogramCreate (data : Nat → K) (size : Nat) (min max : K) (num : Nat) : Res (Hist K) :=
  if num = 0 then .fail
  else forUpM 0 size (fun i h => zHistogramVote h (data i)) ⟨min, max, num, fun _ => 0⟩

/-- `zHistogramCreateAuto`, zm_stat_histogram.c:53-60. -/
def zHistogramCreateAuto (data : Nat → K) (size : Nat) (num : Nat) : Res (Hist K) :=
  if (num : K) - 1 = 0 then .ub
  else
    let m := zDataMinMax data size
    let margin := 1/2 * (m.2.1 - m.1.1) / ((num : K) - 1)
    zHistogramCreate data size (m.1.1 - margin) (m.2.1 + margin) num

/-- `zHistogramBinMin`, zm_stat_histogram.c:63-67. -/
def zHistogramBinMin (h : Hist K) (i : Int) : K :=
  let i : Int := if i < 0 then 0 else if i > (h.num : Int) - 1 then (h.num : Int) - 1 else i
  h.min + (h.max - h.min) * (i : K) / (h.num : K)

/-- `zHistogramBinMax`, zm_stat_histogram.c:70-73. -/
def zHistogramBinMax (h : Hist K) (i : Int) : K := zHistogramBinMin h (i + 1)

/-- `zHistogramBinMid`, zm_stat_histogram.c:76-79. -/
def zHistogramBinMid (h : Hist K) (i : Int) : K := 1/2 * (zHistogramBinMax h i + zHistogramBinMin h i)

end
end Zm.Stat
