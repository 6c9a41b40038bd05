import Verif.Base.Res
import Mathlib.Analysis.SpecialFunctions.Complex.Arg
import Mathlib.Analysis.SpecialFunctions.Log.Basic

/-!
# Angles, cycloids, the sigmoid function and rounding (zm_misc.c, zm_misc.h)

Values of type `double` are real numbers; the functions of the C library are the real functions.
-/

namespace Zm.Phase
open Zm
noncomputable section

/-- `atan2` of the C library: the angle of the point (`c`, `s`). -/
def atan2 (s c : ℝ) : ℝ := Complex.arg ⟨c, s⟩

/-- `zSinCos`, zm_misc.c:29-32, and `_zSinCos`, zm_misc.h:73-76: the sine and the cosine. -/
def zSinCos (angle : ℝ) : ℝ × ℝ := (Real.sin angle, Real.cos angle)

/-- `zPhaseNormalize`, zm_misc.c:35-41. -/
def zPhaseNormalize (angle : ℝ) : ℝ := atan2 (zSinCos angle).1 (zSinCos angle).2

/-- `zCycloidX`, zm_misc.c:73-76. -/
def zCycloidX (phase : ℝ) : ℝ := phase - Real.sin (2 * Real.pi * phase) / (2 * Real.pi)

/-- `zCycloidY`, zm_misc.c:79-82. -/
def zCycloidY (phase : ℝ) : ℝ := 1 / 2 * (1 - Real.cos (2 * Real.pi * phase))

/-- `zSigmoid`, zm_misc.c:85-88. -/
def zSigmoid (x : ℝ) : ℝ := 1 / (1 + Real.exp (-x))

/-- `zCeil`, zm_misc.h:105. -/
def zCeil (x : ℝ) : ℝ := if x ≥ 0 then (⌈x⌉ : ℝ) else (⌊x⌋ : ℝ)

/-- Conversion to `int`, which drops the fraction; undefined where the result is not an `int`. -/
def toInt (x : ℝ) : Res Int :=
  if -2147483648 ≤ (if x ≥ 0 then ⌊x⌋ else ⌈x⌉) ∧ (if x ≥ 0 then ⌊x⌋ else ⌈x⌉) ≤ 2147483647 then .ok (if x ≥ 0 then ⌊x⌋ else ⌈x⌉) else .ub

/-- `zRound`, zm_misc.h:108. -/
def zRound (x : ℝ) : Res ℝ :=
  match (if x ≥ 0 then toInt (x + 1 / 2) else toInt (x - 1 / 2)) with
  | .ok i => .ok (i : ℝ)
  | .fail => .fail
  | .ub => .ub

/-- `zFruct`, zm_misc.h:111; a zero divisor is undefined. -/
def zFruct (x y : ℝ) : Res ℝ := if y = 0 then .ub else .ok (x - (⌊x / y⌋ : ℝ) * y)

/-- `zLog`, zm_misc.h:89; a zero divisor is undefined. -/
def zLog (base x : ℝ) : Res ℝ := if Real.log base = 0 then .ub else .ok (Real.log x / Real.log base)

end
end Zm.Phase
