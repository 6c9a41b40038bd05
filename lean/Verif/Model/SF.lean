import Verif.Base.Fn
import Verif.Model.Complex
import Mathlib.Analysis.SpecialFunctions.Log.Basic
import Mathlib.Analysis.SpecialFunctions.Trigonometric.Basic

/-!
# Special functions and series
`src/zm_sf_erf.c`, `src/zm_sf_gamma.c`, `src/zm_sf_fresnel.c`, `src/zm_fourier.c` and the oscillators `src/zm_oscil_*.c`,
over the real numbers; `zPI` is the real number π, and the functions
of the C library are the real functions.
-/

namespace Zm.SF
open Zm
noncomputable section

/-! ## Error function -/

/-- The factor of the term `i`, zm_sf_erf.c:17-19. -/
def erfTerm (x : ℝ) (i : Nat) : ℝ := forUp 1 (i+1) (fun j d => d * (-(x*x) / j)) 1

/-- `zErfN`, zm_sf_erf.c:10-23. -/
def zErfN (x : ℝ) (n : Nat) : ℝ := 2 * forUp 0 (n+1) (fun i s => s + erfTerm x i * x / (2*i+1)) 0 / Real.sqrt Real.pi

/-- `zErf`, zm_sf_erf.h:33-34. -/
def zErf (x : ℝ) : ℝ := zErfN x 35

/-- `zCDF`, zm_sf_erf.h:41, of an argument that is a single number or variable. -/
def zCDF (x : ℝ) : ℝ := 0.5 * (1.0 + zErf (0.5 * x * Real.sqrt 2.0))

/-! ## Gamma and beta function -/

/-- `_zGammaSeed`, zm_sf_gamma.c:10-21. -/
def gammaSeed (x : ℝ) : ℝ :=
  let s : ℝ := 1.000000000190015
  let s := s -  0.000005395239384953 / (x+6)
  let s := s +  0.001208650973866179 / (x+5)
  let s := s -  1.231739572450155    / (x+4)
  let s := s + 24.01409824083091     / (x+3)
  let s := s - 86.50532032941677     / (x+2)
  let s := s + 76.18009172947146     / (x+1)
  2.5066282746310005 * s / x

/-- `_zGammaBias`, zm_sf_gamma.c:24-27. -/
def gammaBias (x : ℝ) : ℝ := (x + 0.5) * Real.log (x + 5.5) - x - 5.5

/-- `zGamma`, zm_sf_gamma.c:30-33. -/
def zGamma (x : ℝ) : ℝ := Real.exp (gammaBias x) * gammaSeed x

/-- `zLnGamma`, zm_sf_gamma.c:36-39. -/
def zLnGamma (x : ℝ) : ℝ := gammaBias x + Real.log (gammaSeed x)

/-- `zBeta`, zm_sf_gamma.c:42-45. -/
def zBeta (z w : ℝ) : ℝ := Real.exp (zLnGamma z + zLnGamma w - zLnGamma (z+w))

/-! ## Fresnel integrals -/

/-- The variables of the loop of `_zFresnelIntgGilbert`. -/
structure Gil where
  s : ℝ
  c : ℝ
  sum : ℝ
  t : ℝ

/-- The loop, zm_sf_fresnel.c:21-32, at the index `i` with `k` turns left; `n = 2 i + 1`.  Running out of turns is the return of `false`. -/
def gilLoop (tol t0 : ℝ) : Nat → Nat → Gil → Gil × Bool
  | 0, _, g => (g, false)
  | k+1, i, g =>
    let t := g.t * (t0 / i)
    let sum := g.sum + (if i % 4 ≤ 1 then t else -t) / (2*i+1)
    if t < |sum| * tol then ({ g with sum := sum, t := t }, true)
    else if i % 2 ≠ 0 then gilLoop tol t0 k (i+1) { s := sum, c := g.c, sum := g.c, t := t }
    else gilLoop tol t0 k (i+1) { s := g.s, c := sum, sum := g.s, t := t }

/-- `_zFresnelIntgGilbert`, zm_sf_fresnel.c:13-38: sine part, cosine part, success. -/
def gilbert (tol : ℝ) (limit : Nat) (x : ℝ) : ℝ × ℝ × Bool :=
  let r := gilLoop tol (Real.pi / 2 * x * x) limit 1 ⟨0, x, 0, x⟩
  (r.1.s, r.1.c, r.2)

/-- The variables `b`, `d`, `cc` and `h` of the loop of `_zFresnelIntgLentz`. -/
structure Lentz where
  b : ℂ
  d : ℂ
  cc : ℂ
  h : ℂ

/-- The body of the loop, zm_sf_fresnel.c:57-66, with `n = 2 j + 1`: the variables and `del` before one is subtracted.  A divisor refused by `zComplexCDiv`
leaves a variable without a value, which is `ub`; one refused by `zComplexInv` leaves `cd` as it is. -/
def lentzStep (tol : ℝ) (j : Nat) (l : Lentz) : Res (Lentz × ℂ) :=
  let n : Nat := 2*j+1
  let a : ℝ := -((n * (n+1) : Nat) : ℝ)
  let b : ℂ := ⟨l.b.re + 4, l.b.im⟩
  let cd : ℂ := l.d * a + b
  (match Cplx.invVal tol cd with
   | .ok z => .ok z
   | _ => .ub : Res ℂ).bind fun d =>
    let cd := match Cplx.invVal tol l.cc with
      | .ok z => z
      | _ => cd
    let cc := cd * a + b
    let del := cc * d
    .ok (⟨b, d, cc, l.h * del⟩, del)

/-- The loop, zm_sf_fresnel.c:56-69, at the turn `j` with `k` turns left; the test is `zComplexIsTiny` (zm_complex.h:80-83). -/
def lentzLoop (tol : ℝ) : Nat → Nat → Lentz → Res (ℂ × Bool)
  | 0, _, l => .ok (l.h, false)
  | k+1, j, l => (lentzStep tol j l).bind fun r =>
    if |r.2.re - 1| ≤ tol ∧ |r.2.im| ≤ tol then .ok (r.1.h, true) else lentzLoop tol k (j+1) r.1

/-- `_zFresnelIntgLentz`, zm_sf_fresnel.c:41-79: sine part, cosine part, success. -/
def zFresnelIntgLentz (tol : ℝ) (limit : Nat) (x : ℝ) : Res (ℝ × ℝ × Bool) :=
  let pix2 := Real.pi / 2 * x * x
  let b : ℂ := ⟨1, -pix2*2⟩
  (match Cplx.invVal tol b with
   | .ok z => .ok z
   | _ => .ub : Res ℂ).bind fun d =>
  (lentzLoop tol (limit - 1) 0 ⟨b, d, (1 / 1.0e-30 : ℝ), d⟩).bind fun r =>
    let sp := Real.sin pix2
    let cp := Real.cos pix2
    let ca : ℂ := ⟨(r.1.re + r.1.im)*x, (-r.1.re + r.1.im)*x⟩
    let cd : ℂ := ⟨cp*ca.re - sp*ca.im, cp*ca.im + sp*ca.re⟩
    let cs : ℂ := ⟨0.5*(1-cd.re+cd.im), 0.5*(1-cd.re-cd.im)⟩
    .ok (cs.im, cs.re, r.2)

/-- The outcome of `_zFresnelIntgLentz`; an undefined one, which does not occur (`zFresnelIntgLentz_accurate`), is taken for a failure. -/
def lentz (tol : ℝ) (limit : Nat) (x : ℝ) : ℝ × ℝ × Bool :=
  match zFresnelIntgLentz tol limit x with
  | .ok r => r
  | _ => (0, 0, false)

/-- `zFresnelIntgPI_2`, zm_sf_fresnel.c:82-101. -/
def zFresnelIntgPI_2 (tol : ℝ) (limit : Nat) (x : ℝ) : ℝ × ℝ × Bool :=
  let ax := |x|
  let r := if ax < Real.sqrt 1.0e-30 then (0, ax, true) else if ax ≤ 1.5 then gilbert tol limit ax else lentz tol limit ax
  if x < 0 then (-r.1, -r.2.1, r.2.2) else r

/-- `zFresnelIntgScale`, zm_sf_fresnel.c:104-119, with the integral `fr` of π/2. -/
def zFresnelIntgScale (tol : ℝ) (fr : ℝ → ℝ × ℝ × Bool) (x f : ℝ) : ℝ × ℝ × Bool :=
  if |f| ≤ tol then (0, x, true)
  else
    let r := Real.sqrt (Real.pi / 2 / |f|)
    let p := fr (x / r)
    (p.1 * (if f > 0 then r else -r), p.2.1 * r, p.2.2)

/-- `zFresnelIntg`, zm_sf_fresnel.c:122-125. -/
def zFresnelIntg (tol : ℝ) (fr : ℝ → ℝ × ℝ × Bool) (x : ℝ) : ℝ × ℝ × Bool := zFresnelIntgScale tol fr x 1

/-- `zFresnelIntgGen`, zm_sf_fresnel.c:128-153. -/
def zFresnelIntgGen (tol : ℝ) (fr : ℝ → ℝ × ℝ × Bool) (x f0 f1 f2 : ℝ) : ℝ × ℝ × Bool :=
  if |f2| ≤ tol then
    let s1 := Real.sin f0
    let c1 := Real.cos f0
    if |f1| ≤ tol then (x * s1, x * c1, true)
    else
      let s2 := Real.sin (f0 + f1 * x)
      let c2 := Real.cos (f0 + f1 * x)
      (-(c2 - c1) / f1, (s2 - s1) / f1, true)
  else
    let p := zFresnelIntgScale tol fr (x + 0.5*f1/f2) f2
    let q := zFresnelIntgScale tol fr (0.5*f1/f2) f2
    let s1 := p.1 - q.1
    let c1 := p.2.1 - q.2.1
    let s2 := Real.sin (f0 - 0.25 * f1*f1 / f2)
    let c2 := Real.cos (f0 - 0.25 * f1*f1 / f2)
    (c1*s2 + s1*c2, c1*c2 - s1*s2, p.2.2 && q.2.2)

/-! ## Fourier series -/

/-- `zFourierVal`, zm_fourier.c:31-41. -/
def zFourierVal (n : Nat) (sc cc : Nat → ℝ) (t : ℝ) : ℝ := forUp 0 n (fun i val => val + (sc i * Real.sin (i*t) + cc i * Real.cos (i*t))) 0

/-- `zFourierVel`, zm_fourier.c:44-54. -/
def zFourierVel (n : Nat) (sc cc : Nat → ℝ) (t : ℝ) : ℝ := forUp 0 n (fun i val => val + i * (sc i * Real.cos (i*t) - cc i * Real.sin (i*t))) 0

/-- `zFourierAcc`, zm_fourier.c:57-67; the product `i*i` of `int` does not overflow. -/
def zFourierAcc (n : Nat) (sc cc : Nat → ℝ) (t : ℝ) : ℝ := forUp 0 n (fun i val => val - i*i * (sc i * Real.sin (i*t) + cc i * Real.cos (i*t))) 0

/-! ## Oscillators -/

/-- Van der Pol's oscillator, zm_oscil_vdp.c:9-14. -/
structure VDP where
  omega : ℝ
  eps : ℝ
  amp : ℝ
  x : ℝ
  v : ℝ

/-- `zOscCreateVDP`, zm_oscil_vdp.c:49-67; `zAlloc` fills the state with zeros. -/
def zOscCreateVDP (tol t damp amp : ℝ) : Res VDP := if |t| ≤ tol then .fail else .ok ⟨2 * Real.pi / t, damp, amp * 0.5, 0, 0⟩

/-- `_zOscInitVDP`, zm_oscil_vdp.c:17-21; division by an amplitude of zero is `ub`. -/
def VDP.init (o : VDP) (x0 v0 : ℝ) : Res VDP := if o.amp = 0 then .ub else .ok { o with x := x0 / o.amp, v := v0 / o.amp }

/-- `_zOscOutputVDP`, zm_oscil_vdp.c:24-27. -/
def VDP.output (o : VDP) : ℝ := o.amp * o.x

/-- `_zOscUpdateVDP`, zm_oscil_vdp.c:30-40. -/
def VDP.update (o : VDP) (u dt : ℝ) : VDP :=
  let a := -o.omega * (o.eps * (o.x^2 - 1) * o.v + o.omega * o.x) - u
  let v := o.v + a * dt
  { o with v := v, x := o.x + v * dt }

/-- Kuramoto's oscillator, zm_oscil_kura.c:9-15. -/
structure Kura where
  wn : ℝ
  ke : ℝ
  po : ℝ
  p : ℝ
  w : ℝ

/-- `zOscCreateKura`, zm_oscil_kura.c:47-61. -/
def zOscCreateKura (wn ke po : ℝ) : Kura := ⟨wn, ke, po, 0, 0⟩

/-- `_zOscInitKura`, zm_oscil_kura.c:18-22. -/
def Kura.init (o : Kura) (p0 w0 : ℝ) : Kura := { o with p := p0, w := w0 }

/-- `_zOscUpdateKura`, zm_oscil_kura.c:25-32. -/
def Kura.update (o : Kura) (u dt : ℝ) : Kura :=
  let w := o.wn + o.ke * Real.sin (u - o.p - o.po)
  { o with w := w, p := o.p + w * dt }

/-- `_zOscOutputKura`, zm_oscil_kura.c:35-38. -/
def Kura.output (o : Kura) : ℝ := o.p

/-! ## Successive substitution -/

/-- The loop of `zSSSolve`, zm_nle_ss.c:22-27, with `k` turns left: the vector and whether the test ended the loop.  The function computes its value from
its argument alone; vectors have `n` components. -/
def ssLoop (tol : ℝ) (n : Nat) (f : (Nat → ℝ) → Nat → ℝ) : Nat → (Nat → ℝ) → (Nat → ℝ) × Bool
  | 0, x => (x, false)
  | k+1, x => if ∀ i, i < n → |f x i - x i| ≤ tol then (x, true) else ssLoop tol n f k (f x)

/-- `zSSSolve`, zm_nle_ss.c:10-33; ZITERINIT (zm_misc.h:97) replaces a number that is not positive by 10000.  Allocation succeeds. -/
def zSSSolve (tol : ℝ) (n : Nat) (f : (Nat → ℝ) → Nat → ℝ) (x : Nat → ℝ) (iter : Int) : (Nat → ℝ) × Bool :=
  ssLoop tol n f (if iter ≤ 0 then 10000 else iter.toNat) x

/-- `zFourierSetSinCoeff`, zm_fourier.h:29, on the array of coefficients. -/
def zFourierSetSinCoeff (n : Nat) (sc : Nat → ℝ) (i : Int) (c : ℝ) : Nat → ℝ := if 0 ≤ i ∧ i < n then set1 sc i.toNat (if i = 0 then 0 else c) else sc

/-- `zFourierSetCosCoeff`, zm_fourier.h:31. -/
def zFourierSetCosCoeff (n : Nat) (cc : Nat → ℝ) (i : Int) (c : ℝ) : Nat → ℝ := if 0 ≤ i ∧ i < n then set1 cc i.toNat c else cc

end
end Zm.SF
