import Verif.Model.Pex
import Verif.Model.Complex

/-! # Expansion of complex factors into a polynomial expression

Model of `zPexCExp` of `src/zm_pex.c` and of the vectors it allocates. -/

namespace Zm.Pex
open Zm

/-- `rfactor ? _zPexExp( rfactor ) : NULL`, zm_pex.c:232. -/
noncomputable def expRe (fwd : Bool) (r : List ℝ) : Res (Option (Pex ℝ)) :=
  if r = [] then .ok none else (zPexExpGo fwd r.length r.length fun i => r.getD i 0).bind fun p => .ok (some p.1)

/-- `ifactor ? _zPexExpIm( ifactor ) : NULL`, zm_pex.c:233. -/
noncomputable def expIm (fwd : Bool) (w : List ℂ) : Res (Option (Pex ℝ)) :=
  if w = [] then .ok none else (zPexExpImGo fwd w.length w.length fun i => ((w.getD i 0).re, (w.getD i 0).im)).bind fun p => .ok (some p.1)

/-- zm_pex.c:234-239; a clone has the same coefficients. -/
noncomputable def joinFactors : Option (Pex ℝ) → Option (Pex ℝ) → Res (Option (Pex ℝ))
  | some pr, some pc => (zPexMul pr pc).bind fun p => .ok (some p)
  | some pr, none => .ok (some pr)
  | none, pc => .ok pc

/-- The vectors that `zCVecToReImVec` has allocated when it returns, zm_cvec.c:173-174: one for the real and one for the other factors, if there are any. -/
noncomputable def reImBlocks (tol : ℝ) (v : List ℂ) : Nat :=
  (if v.filter (fun z => decide (|z.im| ≤ tol)) = [] then 0 else 1) + (if v.filter (fun z => !decide (|z.im| ≤ tol)) = [] then 0 else 1)

/-- `zPexCExp`, zm_pex.c:225-245, when memory suffices: what is returned, where `none` is the null pointer, and the number of vectors left allocated beside it. -/
noncomputable def zPexCExp (fwd : Bool) (tol : ℝ) (factor : List ℂ) : Res (Option (Pex ℝ) × Nat) :=
  match Cplx.zCVecToReImVec tol factor with
  | .ub => .ub
  | .fail => .ok (none, reImBlocks tol factor)
  | .ok ri => (expRe fwd ri.1).bind fun pr => (expIm fwd ri.2).bind fun pc => (joinFactors pr pc).bind fun p => .ok (p, 0)

end Zm.Pex
