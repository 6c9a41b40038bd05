import Verif.Base.Fn
import Mathlib.Analysis.SpecialFunctions.Trigonometric.Basic

/-! # zm_data_fft.c: fast Fourier transformation

Numbers are exact: `double` is `ℝ`, `zComplex` is a pair of real numbers (`ℂ`), `cos`, `sin` and π are the exact ones.
Arrays are functions `Nat → ℂ` with an explicit offset for the pointer passed to the function.  `uint` overflow of
`radix*radix` is not modelled. -/

namespace Zm.FFT
open Zm

/-- `zComplexCMul`, include/zm/zm_complex_arith.h:75. -/
def cmul (a b : ℂ) : ℂ := ⟨a.re * b.re - a.im * b.im, a.re * b.im + a.im * b.re⟩

/-- `zComplexCreate( &w, cos(t), sin(t) )`, as used in zm_data_fft.c:38,43. -/
noncomputable def cis (t : ℝ) : ℂ := ⟨Real.cos t, Real.sin t⟩

/-- `for( k=lo; k<hi; k+=step )`. -/
def forStep {σ : Type*} (lo hi step : Nat) (f : Nat → σ → σ) (s : σ) : σ :=
  forUp 0 ((hi - lo + step - 1) / step) (fun q => f (lo + q * step)) s

/-- The loop of `_zFFTRadix`, zm_data_fft.c:14-15. -/
def radixGo (n : Nat) : Nat → Nat → Nat
  | 0, radix => radix
  | fuel+1, radix => if radix * radix ≤ n then (if n % radix = 0 then radix else radixGo n fuel (radix + 1)) else radix

/-- `_zFFTRadix`, zm_data_fft.c:10-18. -/
def radix (n : Nat) : Nat :=
  let r := radixGo n n 2
  if n % r ≠ 0 then n else r

/-- The butterflies, zm_data_fft.c:31-45: fills `buf` (array `B` from offset `ob`) from `data` (array `A` from offset `oa`). -/
noncomputable def butterfly (n nr r : Nat) (θ : ℝ) (oa ob : Nat) (A B : Nat → ℂ) : Nat → ℂ :=
  forUp 0 nr (fun i B => forUp 0 r (fun j B =>
    let x := forStep nr n nr (fun k x => x + cmul (cis (θ * j * k)) (A (oa + (k + i)))) (A (oa + i))
    set1 B (ob + (nr * j + i)) (cmul x (cis (θ * j * i)))) B) B

/-- `_zFFTInner`, zm_data_fft.c:21-53.  `data` is array `A` from offset `oa`, `buf` is array `B` from offset `ob`; the
recursive calls exchange the roles of the two arrays.  The recursion depth is bounded by `fuel` (callers give `n`). -/
noncomputable def inner : Nat → Nat → ℝ → Nat → Nat → (Nat → ℂ) × (Nat → ℂ) → (Nat → ℂ) × (Nat → ℂ)
  | 0, _, _, _, _, s => s
  | fuel+1, n, θ, oa, ob, (A, B) =>
    if n ≤ 1 then (A, B)
    else
      let r := radix n
      let nr := n / r
      let B := butterfly n nr r θ oa ob A B
      let (B, A) := forStep 0 n nr (fun i s => inner fuel nr (θ * r) (ob + i) oa s) (B, A)
      let A := forUp 0 nr (fun i A => forUp 0 r (fun j A => set1 A (oa + (r * i + j)) (B (ob + (nr * j + i)))) A) A
      (A, B)

/-- `zFFT`, zm_data_fft.c:56-77.  `dn`, `rn` are the sizes of `data` and `result`; `buf` is the uninitialised work space. -/
noncomputable def zFFT (dn rn : Nat) (data : Nat → ℝ) (buf : Nat → ℂ) : Res (Nat → ℂ) :=
  if dn ≠ rn then .fail
  else
    let result : Nat → ℂ := fun i => ⟨data i, 0⟩
    let result := (inner dn dn (2 * Real.pi / dn) 0 0 (result, buf)).1
    let result := set1 result 0 ⟨(result 0).re * (1/2), (result 0).im * (1/2)⟩
    .ok fun i => ⟨(result i).re * (2 / rn), (result i).im * (2 / rn)⟩

/-- `zFFTInv`, zm_data_fft.c:80-106. -/
noncomputable def zFFTInv (dn rn : Nat) (data : Nat → ℂ) (buf : Nat → ℂ) : Res (Nat → ℝ) :=
  if dn ≠ rn then .fail
  else
    let cres : Nat → ℂ := fun i => ⟨(data i).re * (1/2), (data i).im * (1/2)⟩
    let cres := set1 cres 0 ⟨(cres 0).re * 2, (cres 0).im * 2⟩
    let cres := (inner dn dn (- (2 * Real.pi) / dn) 0 0 (cres, buf)).1
    .ok fun i => (cres i).re

/-- `zFFT2`, zm_data_fft.c:109-148.  `r`,`c` are the row and column sizes of `data`, `r'`,`c'` those of `result`.  The
work space `buf` is threaded through the loops. -/
noncomputable def zFFT2 (r c r' c' : Nat) (data : Nat → Nat → ℝ) (buf : Nat → ℂ) : Res (Nat → Nat → ℂ) :=
  if r ≠ r' ∨ c ≠ c' then .fail
  else
    let result : Nat → Nat → ℂ := fun i j => ⟨data i j, 0⟩
    let s := forUp 0 r (fun i (s : (Nat → Nat → ℂ) × (Nat → ℂ)) =>
      let (row, buf) := inner c c (2 * Real.pi / c) 0 0 (s.1 i, s.2)
      let row := set1 row 0 ⟨(row 0).re * (1/2), (row 0).im * (1/2)⟩
      (set1 s.1 i row, buf)) (result, buf)
    let s : (Nat → Nat → ℂ) × (Nat → ℂ) := (fun i j => ⟨(s.1 i j).re * (2 / c), (s.1 i j).im * (2 / c)⟩, s.2)
    let s := forUp 0 c (fun j (s : (Nat → Nat → ℂ) × (Nat → ℂ)) =>
      let (tmp, buf) := inner r r (2 * Real.pi / r) 0 0 (fun i => s.1 i j, s.2)
      let tmp := set1 tmp 0 ⟨(tmp 0).re * (1/2), (tmp 0).im * (1/2)⟩
      (fun i k => if k = j then tmp i else s.1 i k, buf)) s
    .ok fun i j => ⟨(s.1 i j).re * (2 / r), (s.1 i j).im * (2 / r)⟩

/-- The amplitude correction of the inverse transformations, zm_data_fft.c:97-98,172-173,181-182. -/
noncomputable def invAmp (tmp : Nat → ℂ) : Nat → ℂ :=
  let tmp : Nat → ℂ := fun i => ⟨(tmp i).re * (1/2), (tmp i).im * (1/2)⟩
  set1 tmp 0 ⟨(tmp 0).re * 2, (tmp 0).im * 2⟩

/-- `zFFT2Inv`, zm_data_fft.c:151-196. -/
noncomputable def zFFT2Inv (r c r' c' : Nat) (data : Nat → Nat → ℂ) (buf : Nat → ℂ) : Res (Nat → Nat → ℝ) :=
  if r ≠ r' ∨ c ≠ c' then .fail
  else
    let s := forUp 0 c (fun j (s : (Nat → Nat → ℂ) × (Nat → ℂ)) =>
      let (tmp, buf) := inner r r (- (2 * Real.pi) / r) 0 0 (invAmp (fun i => data i j), s.2)
      (fun i k => if k = j then tmp i else s.1 i k, buf)) (fun _ _ => 0, buf)
    let cres := s.1
    let s := forUp 0 r (fun i (s : (Nat → Nat → ℝ) × (Nat → ℂ)) =>
      let (tmp, buf) := inner c c (- (2 * Real.pi) / c) 0 0 (invAmp (cres i), s.2)
      (set1 s.1 i (fun j => (tmp j).re), buf)) (fun _ _ => 0, s.2)
    .ok s.1

end Zm.FFT
