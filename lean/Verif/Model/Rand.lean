import Verif.Base.Res
import Mathlib.Analysis.SpecialFunctions.Pow.Real
import Mathlib.Analysis.SpecialFunctions.Trigonometric.Basic
import Mathlib.Analysis.SpecialFunctions.Sqrt

/-!
# Random variates (zm_rand.c)

The Mersenne twister is ZEDA's: its numbers are an arbitrary sequence `U : Nat → ℝ`, and the state of a generator is the
number of the next one, with the switch and the second number of the normal generator.  `zRandMTN`, `zRandMTNU` and
`zRandMTF(mt,0,1)` all take the next number.  Loops without a bound take fuel.
-/

namespace Zm.Rnd
noncomputable section

/-- The part of `zRandMT` that this library uses. -/
structure MT where
  pos : Nat
  ndSw : Bool
  ndLast : ℝ

/-- The next number. -/
def MT.next (U : Nat → ℝ) (mt : MT) : ℝ × MT := (U mt.pos, { mt with pos := mt.pos + 1 })

/-- `zRandBinom`, zm_rand.c:168-175; the loop runs `n` times. -/
def zRandBinom (U : Nat → ℝ) (p : ℝ) : Nat → Nat → Nat → Nat × Nat
  | 0, pos, r => (r, pos)
  | n+1, pos, r => zRandBinom U p n (pos+1) (if U pos < p then r + 1 else r)

/-- `zRandND0`, zm_rand.c:75-89. -/
def zRandND0 (U : Nat → ℝ) (mt : MT) : ℝ × MT :=
  if mt.ndSw = false then
    let t := Real.sqrt (-2 * Real.log (1 - U mt.pos))
    let u := 2 * Real.pi * U (mt.pos + 1)
    (t * Real.cos u, { pos := mt.pos + 2, ndSw := true, ndLast := t * Real.sin u })
  else (mt.ndLast, { mt with ndSw := false })

/-- `zRandND`, zm_rand.c:92-95. -/
def zRandND (U : Nat → ℝ) (mu sigma : ℝ) (mt : MT) : ℝ × MT := (mu + sigma * (zRandND0 U mt).1, (zRandND0 U mt).2)

/-- The innermost loop of `zRandGamma`, zm_rand.c:25-28: a point of the half disk. -/
def gammaDisk (U : Nat → ℝ) : Nat → Nat → Res (ℝ × ℝ × Nat)
  | 0, _ => .ub
  | k+1, pos =>
    if (1 - U pos) * (1 - U pos) + (2 * U (pos+1) - 1) * (2 * U (pos+1) - 1) > 1 then gammaDisk U k (pos+2)
    else .ok (1 - U pos, 2 * U (pos+1) - 1, pos+2)

/-- The middle loop, zm_rand.c:24-31: `x` and `y`; a zero divisor is undefined. -/
def gammaMid (U : Nat → ℝ) (t a : ℝ) (fuel : Nat) : Nat → Nat → Res (ℝ × ℝ × Nat)
  | 0, _ => .ub
  | k+1, pos =>
    match gammaDisk U fuel pos with
    | .ok (x, y, pos) =>
      if x = 0 then .ub
      else if t * (y / x) + a ≤ 0 then gammaMid U t a fuel k pos
      else .ok (t * (y / x) + a, y / x, pos)
    | .fail => .fail
    | .ub => .ub

/-- The outer loop for `a > 1`, zm_rand.c:23-33, with `a` already reduced by one. -/
def gammaBig (U : Nat → ℝ) (t a : ℝ) (fuel : Nat) : Nat → Nat → Res (ℝ × Nat)
  | 0, _ => .ub
  | k+1, pos =>
    match gammaMid U t a fuel fuel pos with
    | .ok (x, y, pos) =>
      let u := a * Real.log (x / a) - t * y
      if u < -50 then gammaBig U t a fuel k pos
      else if U pos > (1 + y * y) * Real.exp u then gammaBig U t a fuel k (pos+1)
      else .ok (x, pos+1)
    | .fail => .fail
    | .ub => .ub

/-- The loop for `a ≤ 1`, zm_rand.c:36-44.  The draws may be one, so that line 41 may take the logarithm of zero: undefined here. -/
def gammaSmall (U : Nat → ℝ) (t a : ℝ) : Nat → Nat → Res (ℝ × Nat)
  | 0, _ => .ub
  | k+1, pos =>
    if U pos < t then
      if U (pos+2) ≥ Real.exp (-(U (pos+1) ^ (1 / a))) then gammaSmall U t a k (pos+3) else .ok (U (pos+1) ^ (1 / a), pos+3)
    else if 1 - U (pos+1) = 0 then .ub
    else if U (pos+2) ≥ (1 - Real.log (1 - U (pos+1))) ^ (a - 1) then gammaSmall U t a k (pos+3)
    else .ok (1 - Real.log (1 - U (pos+1)), pos+3)

/-- `zRandGamma`, zm_rand.c:16-47. -/
def zRandGamma (U : Nat → ℝ) (fuel : Nat) (a : ℝ) (pos : Nat) : Res (ℝ × Nat) :=
  if a > 1 then gammaBig U (Real.sqrt (2 * (a - 1) + 1)) (a - 1) fuel fuel pos
  else gammaSmall U (Real.exp 1 / (a + Real.exp 1)) a fuel pos

/-- `zRandChiSqr`, zm_rand.c:50-53. -/
def zRandChiSqr (U : Nat → ℝ) (fuel : Nat) (nu : ℝ) (pos : Nat) : Res (ℝ × Nat) :=
  match zRandGamma U fuel (1/2 * nu) pos with
  | .ok (x, pos) => .ok (2 * x, pos)
  | .fail => .fail
  | .ub => .ub

/-- `zRandBeta`, zm_rand.c:56-62; a zero divisor is undefined. -/
def zRandBeta (U : Nat → ℝ) (fuel : Nat) (a b : ℝ) (pos : Nat) : Res (ℝ × Nat) :=
  match zRandGamma U fuel a pos with
  | .ok (x, pos) =>
    match zRandGamma U fuel b pos with
    | .ok (y, pos) => if x + y = 0 then .ub else .ok (x / (x + y), pos)
    | .fail => .fail
    | .ub => .ub
  | .fail => .fail
  | .ub => .ub

/-- `zRandFD`, zm_rand.c:65-72; a zero divisor is undefined. -/
def zRandFD (U : Nat → ℝ) (fuel : Nat) (a b : ℝ) (pos : Nat) : Res (ℝ × Nat) :=
  match zRandChiSqr U fuel a pos with
  | .ok (x1, pos) =>
    match zRandChiSqr U fuel b pos with
    | .ok (x2, pos) => if x2 * a = 0 then .ub else .ok ((x1 * b) / (x2 * a), pos)
    | .fail => .fail
    | .ub => .ub
  | .fail => .fail
  | .ub => .ub

/-- `zRandExp`, zm_rand.c:119-122. -/
def zRandExp (u : ℝ) : ℝ := - Real.log (1 - u)

/-- `zRandPower`, zm_rand.c:136-139. -/
def zRandPower (u n : ℝ) : ℝ := u ^ (1 / (n + 1))

/-- `zRandTri`, zm_rand.c:142-145. -/
def zRandTri (u1 u2 : ℝ) : ℝ := u1 - u2

/-- `zRandWeibull`, zm_rand.c:160-163. -/
def zRandWeibull (u alpha : ℝ) : ℝ := (- Real.log (1 - u)) ^ (1 / alpha)

/-- The loop of `zRandPoisson`, zm_rand.c:200-202. -/
def poissonLoop (U : Nat → ℝ) : Nat → Nat → ℝ → Nat → Res Nat
  | 0, _, _, _ => .ub
  | k+1, pos, lambda, i => if lambda > 1 then poissonLoop U k (pos+1) (lambda * U pos) (i+1) else .ok i

/-- `zRandPoisson`, zm_rand.c:195-203. -/
def zRandPoisson (U : Nat → ℝ) (fuel : Nat) (lambda : ℝ) (pos : Nat) : Res Nat :=
  poissonLoop U fuel (pos+1) (Real.exp lambda * U pos) 0

/-- `zRandGeo`, zm_rand.c:206-209; a zero divisor is undefined. -/
def zRandGeo (u p : ℝ) : Res Int :=
  if Real.log (1 - p) = 0 then .ub else .ok ⌈Real.log (1 - u) / Real.log (1 - p)⌉

/-- `zRandT`, zm_rand.c:98-114, for `n ≤ 2`: draws of χ² until one is not tiny (the loop takes fuel); the normal number then is drawn by the same generator, whose switch and second number are `sw` and `last`; the root of a negative number and a zero divisor are undefined. -/
def zRandTSmall (U : Nat → ℝ) (tol : ℝ) (fuel : Nat) (n : ℝ) (sw : Bool) (last : ℝ) : Nat → Nat → Res (ℝ × MT)
  | 0, _ => .ub
  | k+1, pos =>
    match zRandChiSqr U fuel n pos with
    | .ok (a, pos) =>
      if |a| ≤ tol then zRandTSmall U tol fuel n sw last k pos
      else if n = 0 ∨ a / n ≤ 0 then .ub
      else .ok ((zRandND0 U ⟨pos, sw, last⟩).1 / Real.sqrt (a / n), (zRandND0 U ⟨pos, sw, last⟩).2)
    | .fail => .fail
    | .ub => .ub

/-- The loop of `zRandT` for `n > 2`, zm_rand.c:108-113. -/
def zRandTBig (U : Nat → ℝ) (n : ℝ) : Nat → MT → Res (ℝ × MT)
  | 0, _ => .ub
  | k+1, mt =>
    let a := (zRandND0 U mt).1
    let mt := (zRandND0 U mt).2
    let b := a * a / (n - 2)
    let c := Real.log (1 - U mt.pos) / (1 - 1 / 2 * n)
    let mt : MT := { mt with pos := mt.pos + 1 }
    if Real.exp (-b - c) > 1 - b then zRandTBig U n k mt
    else if (1 - 2 / n) * (1 - b) ≤ 0 then .ub
    else .ok (a / Real.sqrt ((1 - 2 / n) * (1 - b)), mt)

/-- `zRandT`, zm_rand.c:98-114. -/
def zRandT (U : Nat → ℝ) (tol : ℝ) (fuel : Nat) (n : ℝ) (mt : MT) : Res (ℝ × MT) :=
  if n ≤ 2 then zRandTSmall U tol fuel n mt.ndSw mt.ndLast fuel mt.pos else zRandTBig U n fuel mt

/-- `zRandLog`, zm_rand.c:125-133; a zero divisor is undefined. -/
def zRandLog (U : Nat → ℝ) (tol : ℝ) : Nat → Nat → Res (ℝ × Nat)
  | 0, _ => .ub
  | k+1, pos =>
    if |U pos| ≤ tol then zRandLog U tol k (pos+1)
    else if 1 - U pos = 0 then .ub
    else .ok (Real.log (U pos / (1 - U pos)), pos+1)

/-- `zRandCauchy`, zm_rand.c:148-157; a zero divisor is undefined. -/
def zRandCauchy (U : Nat → ℝ) (fuel pos : Nat) : Res (ℝ × Nat) :=
  match gammaDisk U fuel pos with
  | .ok (x, y, pos) => if x = 0 then .ub else .ok (y / x, pos)
  | .fail => .fail
  | .ub => .ub

/-- `zRandBinom2`, zm_rand.c:178-192: `x` and `y`; the root of a negative number is undefined. -/
def zRandBinom2 (U : Nat → ℝ) (tol r : ℝ) : Nat → Nat → Res (ℝ × ℝ × Nat)
  | 0, _ => .ub
  | k+1, pos =>
    let r1 := 2 * U pos - 1
    let r2 := 2 * U (pos+1) - 1
    let s := r1 * r1 + r2 * r2
    if s > 1 ∨ |s| ≤ tol then zRandBinom2 U tol r k (pos+2)
    else
      let s := -Real.log s / s
      if (1 + r) * s < 0 ∨ (1 - r) * s < 0 then .ub
      else .ok (Real.sqrt ((1 + r) * s) * r1 + Real.sqrt ((1 - r) * s) * r2, Real.sqrt ((1 + r) * s) * r1 - Real.sqrt ((1 - r) * s) * r2, pos+2)

end
end Zm.Rnd
