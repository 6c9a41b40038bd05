import Verif.Base.Res
import Verif.Base.Fn
import Verif.Model.Misc
import Mathlib.Data.Complex.Basic

/-!
# Polynomial expressions (zm_pex.c)

A `zPex` is a `zVec` of `size` coefficients (`zPexDim = size - 1`).  `zVecAlloc` of a non-positive size returns NULL
(`fail`); allocated memory is zeroed.  A division by zero is rendered as `ub`.
-/

namespace Zm.Pex
open Zm Misc
variable {K : Type*} [Field K] [DecidableEq K]

/-- `zPex`, zm_pex.h:21-25. -/
structure Pex (K : Type*) where
  size : Nat
  c : Nat → K

/-- `zPexAlloc(n)` with `n+1 = size`, zm_pex.h:40 and zm_vec.c:31-45. -/
def alloc (size : Nat) : Res (Pex K) := if size = 0 then .fail else .ok { size := size, c := fun _ => 0 }

/-- Loop of `zPexRgl`, zm_pex.c:20: index of the leading non-zero coefficient; `none` when the loop goes below index 0. -/
def rglDim (c : Nat → K) : Nat → Option Nat
  | 0 => if c 0 ≠ 0 then some 0 else none
  | d+1 => if c (d+1) ≠ 0 then some (d+1) else rglDim c d

/-- `zPexRgl`, zm_pex.c:15-29.  Element `-1` is read when all coefficients vanish (and also when the size is 0): `ub`. -/
def zPexRgl (p : Pex K) : Res (Pex K) :=
  if p.size = 0 then .ub
  else match rglDim p.c (p.size - 1) with
  | none => .ub
  | some d => .ok { size := d + 1, c := p.c }

/-- `zPexAddDRC`, zm_pex.c:32-47. -/
def zPexAddDRC (p1 p2 : Pex K) : Res (Pex K) :=
  if p2.size = 0 then .fail
  else if p1.size < p2.size then .fail
  else .ok { p1 with c := forUp 0 p2.size (fun i c => set1 c i (c i + p2.c i)) p1.c }

/-- `zPexSubDRC`, zm_pex.c:50-65. -/
def zPexSubDRC (p1 p2 : Pex K) : Res (Pex K) :=
  if p2.size = 0 then .fail
  else if p1.size < p2.size then .fail
  else .ok { p1 with c := forUp 0 p2.size (fun i c => set1 c i (c i - p2.c i)) p1.c }

/-- A call whose NULL result is ignored: the operand keeps its old value. -/
def ignoreFail (p : Pex K) : Res (Pex K) → Res (Pex K)
  | .fail => .ok p
  | r => r

/-- `zPexAdd`, zm_pex.c:68-77. -/
def zPexAdd (p1 p2 : Pex K) : Res (Pex K) :=
  (alloc (max p1.size p2.size)).bind fun p => (ignoreFail p (zPexAddDRC p p1)).bind fun p =>
    (ignoreFail p (zPexAddDRC p p2)).bind zPexRgl

/-- `zPexSub`, zm_pex.c:80-89. -/
def zPexSub (p1 p2 : Pex K) : Res (Pex K) :=
  (alloc (max p1.size p2.size)).bind fun p => (ignoreFail p (zPexAddDRC p p1)).bind fun p =>
    (ignoreFail p (zPexSubDRC p p2)).bind zPexRgl

/-- `zPexMul`, zm_pex.c:92-105 (operands of positive size, as every allocated polynomial). -/
def zPexMul (p1 p2 : Pex K) : Res (Pex K) :=
  (alloc (p1.size + p2.size - 1)).bind fun p =>
    zPexRgl { p with c := forUp 0 p2.size (fun i c => forUp 0 p1.size (fun j c =>
      set1 c (i+j) (c (i+j) + p2.c i * p1.c j)) c) p.c }

/-- `_zPexDivDRC`, zm_pex.c:108-130, with divisor coefficients `f 0 .. f m`; the first argument is the number
`n - m + 1` of quotient coefficients still to be computed.  Returns the final contents of `p` and `q`.  (The size
bookkeeping of `p` and `q` is undone on return.) -/
def divDRC (f : Nat → K) (m : Nat) : Nat → (Nat → K) → (Nat → K) → (Nat → K) × (Nat → K)
  | 0, p, q => (p, q)
  | k+1, p, q =>
    let n := m + k
    let a := p n / f m
    let q := set1 q k a
    let p := forUp 1 (m+1) (fun i p => set1 p (n-i) (p (n-i) - a * f (m-i))) p
    divDRC f m k p q

/-- `zPexDiv`, zm_pex.c:133-150: quotient and remainder.  `fail` (false) when the quotient or the remainder would have
no coefficient; the remainder goes through `zPexRgl`. -/
def zPexDiv (p f : Pex K) : Res (Pex K × Pex K) :=
  if p.size = 0 ∨ f.size = 0 then .ub
  else if p.size < f.size ∨ f.size - 1 = 0 then .fail
  else if f.c (f.size - 1) = 0 then .ub
  else
    let m := f.size - 1
    let k := p.size - m
    let (p', q) := divDRC f.c m k p.c (fun _ => 0)
    (zPexRgl { size := m, c := p' }).bind fun r => .ok ({ size := k, c := q }, r)

/-- `memcpy( buf, buf+h, n )` within one buffer, zm_pex.c:170.  The C standard leaves overlapping copies undefined;
`fwd = true` models an implementation that copies upwards element by element. -/
def memcpyDown (fwd : Bool) (buf : Nat → K) (h n : Nat) : Res (Nat → K) :=
  if !fwd && decide (h < n) then .ub else .ok fun i => if i < n then buf (i + h) else buf i

/-- `_zPexExp`, zm_pex.c:154-179: polynomial and final contents of the destroyed factor buffer.  The first argument
bounds the recursion depth; the code itself does not return for size 0. -/
def zPexExpGo (fwd : Bool) : Nat → Nat → (Nat → K) → Res (Pex K × (Nat → K))
  | 0, _, _ => .ub
  | fuel+1, size, buf =>
    if size = 1 then .ok ({ size := 2, c := fun i => if i = 0 then - buf 0 else if i = 1 then 1 else 0 }, buf)
    else
      let h := size / 2
      (zPexExpGo fwd fuel h buf).bind fun (p1, buf) =>
      (memcpyDown fwd buf h (size - h)).bind fun buf =>
      (zPexExpGo fwd fuel (size - h) buf).bind fun (p2, buf) =>
      (zPexMul p1 p2).bind fun p => .ok (p, buf)

/-- `zPexExp`, zm_pex.c:182-191 (the factors are cloned). -/
def zPexExp (fwd : Bool) (size : Nat) (factor : Nat → K) : Res (Pex K) :=
  if size = 0 then .fail else (zPexExpGo fwd size size factor).bind fun (p, _) => .ok p

/-- `_zPexExpIm`, zm_pex.c:196-222.  Factors are complex numbers (real and imaginary parts). -/
def zPexExpImGo (fwd : Bool) : Nat → Nat → (Nat → K × K) → Res (Pex K × (Nat → K × K))
  | 0, _, _ => .ub
  | fuel+1, size, buf =>
    if size / 2 = 1 then
      .ok ({ size := 3, c := fun i => if i = 0 then (buf 0).1 * (buf 0).1 + (buf 0).2 * (buf 0).2
        else if i = 1 then - 2 * (buf 0).1 else if i = 2 then 1 else 0 }, buf)
    else
      let h := size / 2 / 2 * 2
      (zPexExpImGo fwd fuel h buf).bind fun (p1, buf) =>
      (if !fwd && decide (h < size - h) then (.ub : Res (Nat → K × K)) else
        .ok fun i => if i < size - h then buf (i + h) else buf i).bind fun buf =>
      (zPexExpImGo fwd fuel (size - h) buf).bind fun (p2, buf) =>
      (zPexMul p1 p2).bind fun p => .ok (p, buf)

/-- `zPexModulo`, zm_pex.c:248-260. -/
def zPexModulo (p1 : Pex K) (a : K) (p2 : Pex K) : Res (Pex K) :=
  if p1.size ≠ p2.size then .fail
  else .ok { size := p2.size, c := forDown 0 (p2.size - 1) (fun i c => forUp i (p2.size - 1) (fun j c =>
    set1 c j (c j - a * c (j+1))) c) p1.c }

/-- `zPexDif`, zm_pex.c:263-272. -/
def zPexDif (p : Pex K) : Res (Pex K) :=
  (alloc (p.size - 1)).bind fun q =>
    .ok { q with c := forUp 0 (p.size - 1) (fun i c => set1 c i (p.c (i+1) * ((i+1 : Nat) : K))) q.c }

/-- `zPexIntg`, zm_pex.c:275-284. -/
def zPexIntg (p : Pex K) : Res (Pex K) :=
  (alloc (p.size + 1)).bind fun q =>
    .ok { q with c := forUp 0 p.size (fun i c => set1 c (i+1) (p.c i / ((i+1 : Nat) : K))) q.c }

/-- `zPexVal`, zm_pex.c:287-296 (positive size). -/
def zPexVal (p : Pex K) (arg : K) : K :=
  if arg = 0 then p.c 0
  else forDown 0 (p.size - 1) (fun i val => val * arg + p.c i) (p.c (p.size - 1))

/-- `zComplexCMul`, zm_complex_arith.c, as used by `zPexCVal`. -/
def cmul (c1 c2 : ℂ) : ℂ := ⟨c1.re * c2.re - c1.im * c2.im, c1.re * c2.im + c1.im * c2.re⟩

/-- `zPexCVal`, zm_pex.c:299-311: `for( ; i>0; i-- )` uses coefficient `i-1`. -/
noncomputable def zPexCVal (p : Pex ℝ) (arg : ℂ) : ℂ :=
  forDown 0 (p.size - 1) (fun i c => ⟨p.c i + (cmul c arg).re, (cmul c arg).im⟩) (⟨p.c (p.size - 1), 0⟩ : ℂ)

/-- `zPexDifVal`, zm_pex.c:314-327: `for( ; i>dim; i-- )` as `i+1` running from the degree down to `dim+1`. -/
def zPexDifVal (p : Pex K) (dim : Nat) (arg : K) : K :=
  let d := p.size - 1
  let c : K := zPermutation (d : Int) (dim : Int)
  (forDown dim d (fun i (s : K × K) =>
    let c := s.1 * (((i + 1 - dim : Nat) : K) / ((i + 1 : Nat) : K))
    (c, c * p.c i + s.2 * arg)) (c, c * p.c d)).2

end Zm.Pex
