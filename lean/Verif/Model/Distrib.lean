import Verif.Model.Stat
import Verif.Model.SF
import Mathlib.Analysis.SpecialFunctions.Pow.Real

/-!
# Model of the distributions: zm_stat.c

`double` is ℝ, with one exception: the loop of `zNormalCumDistrib` ends when an addition leaves the sum as it is, which happens through rounding alone.
Whether the sum `p` absorbs the term `t` is the parameter `absorb p t`.  NaN and infinite results are `fail`.
-/

namespace Zm.Distrib
open Zm

/-- `zND`, zm_stat.h:24. -/
noncomputable def zND : ℝ := 0.398942280401433

/-- `zNormalDistrib`, zm_stat.c:13-16. -/
noncomputable def zNormalDistrib (x mu sigma : ℝ) : Res ℝ :=
  if sigma = 0 then .fail else .ok (zND / sigma * Real.exp (-0.5 * ((x - mu) / sigma) ^ 2))

/-- The loop of `zNormalCumDistrib`, zm_stat.c:28-29, with `n` turns to come: the sum if a term is absorbed. -/
noncomputable def cumLoop (absorb : ℝ → ℝ → Bool) (x2 : ℝ) : Nat → Nat → ℝ → ℝ → Option ℝ
  | 0, _, _, _ => none
  | n + 1, i, p, t => if absorb p (t * (x2 / i)) then some p else cumLoop absorb x2 n (i + 2) (p + t * (x2 / i)) (t * (x2 / i))

/-- The result of `zNormalCumDistrib`, zm_stat.c:29-30, from that of the loop. -/
noncomputable def cumResult (x : ℝ) : Option ℝ → ℝ
  | some p => 0.5 + p
  | none => if x > 0 then 1 else 0

/-- `zNormalCumDistrib`, zm_stat.c:20-31: 99 turns, for i = 3, 5, ..., 199. -/
noncomputable def zNormalCumDistrib (absorb : ℝ → ℝ → Bool) (x mu sigma : ℝ) : Res ℝ :=
  if sigma = 0 then .fail
  else
    let x := x - mu
    let x2 := (x / sigma) ^ 2
    let t := x * Real.exp (-0.5 * x2) / (Real.sqrt (2 * Real.pi) * sigma)
    .ok (cumResult x (cumLoop absorb x2 99 3 t t))

/-- `zPoissonDistrib`, zm_stat.c:34-37; the factorial of a negative number is 0 (C01). -/
noncomputable def zPoissonDistrib (x : Int) (lam : ℝ) : Res ℝ :=
  if Misc.zFactorial (K := ℝ) x = 0 then .fail else .ok (Real.exp (-lam) * lam ^ x / Misc.zFactorial x)

/-- `zChi2Distrib`, zm_stat.c:46-52, for positive `x` and `k`. -/
noncomputable def zChi2Distrib (x : ℝ) (k : Nat) : ℝ :=
  let kd : ℝ := 0.5 * k
  (0.5 : ℝ) ^ kd * x ^ (kd - 1) * Real.exp (-0.5 * x) / SF.zGamma kd

/-- The sum in the case of an odd number of degrees of freedom, zm_stat.c:63-65, with `k = 2 n + 1`: i = 3, 5, ..., k-2. -/
noncomputable def chi2SumOdd (x : ℝ) (n : Nat) : ℝ :=
  let t := Real.sqrt x * Real.exp (-0.5 * x) / Real.sqrt (2 * Real.pi)
  (forUp 1 n (fun j (s : ℝ × ℝ) => (s.1 + s.2 * (x / ((2 * j + 1 : Nat) : ℝ)), s.2 * (x / ((2 * j + 1 : Nat) : ℝ)))) (t, t)).1

/-- `zChi2CumDistrib`, zm_stat.c:55-72, for `0 ≤ x` and a positive number of degrees of freedom. -/
noncomputable def zChi2CumDistrib (absorb : ℝ → ℝ → Bool) (x : ℝ) (k : Nat) : Res ℝ :=
  if k = 1 then (zNormalCumDistrib absorb (Real.sqrt x) 0 1).bind fun p => .ok (2 * p - 1)
  else if k % 2 = 1 then (zNormalCumDistrib absorb (Real.sqrt x) 0 1).bind fun p => .ok (2 * p - 1 - 2 * chi2SumOdd x (k / 2))
  else .ok (Stat.chi2CumEven x (k / 2))

end Zm.Distrib
