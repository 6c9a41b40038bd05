import Verif.Base.Fn
import Verif.Model.OneD
import Mathlib.Algebra.Order.Field.Basic
import Mathlib.Algebra.Order.AbsoluteValue.Basic
import Mathlib.Algebra.Module.Defs

/-!
# Nelder and Mead's method (zm_opt_nm.c)

Vertices are elements of a `K`-module `V`.  The index lists the vertices from the best (`zIndexTail`, position 0) to the
worst (`zIndexHead`, position `num-1`); `zIndexNeck` is position `num-2`.  `zVecSort` (ZEDA's quick sort on the index) is
the parameter `srt`.  The expansion is a `do`-loop; when the fuel is used up the result is undefined.
-/

namespace Zm.NM
variable {K V : Type*} [Field K] [LinearOrder K] [IsStrictOrderedRing K] [AddCommGroup V] [Module K V]

/-- The functions the solver calls: the objective, the distance of two vertices, `zVecSort` on the evaluation values. -/
structure Env (K V : Type*) where
  f : V → K
  dist : V → V → K
  srt : (Nat → K) → (Nat → Nat) → (Nat → Nat)
  num : Nat
  tol : K

/-- `zOptNM`, zm_opt_nm.c:9-16. -/
structure NM (K V : Type*) where
  e : Nat → V
  eval : Nat → K
  index : Nat → Nat

def NM.head (env : Env K V) (s : NM K V) : Nat := s.index (env.num - 1)
def NM.neck (env : Env K V) (s : NM K V) : Nat := s.index (env.num - 2)
def NM.tail (s : NM K V) : Nat := s.index 0

/-- `_zOptNMInit`, zm_opt_nm.c:57-66: the middle of the box and its neighbours along the axes (`axis i` is the unit vector). -/
def init (env : Env K V) (mid : V) (axis : Nat → V) : Nat → V :=
  forUp 1 env.num (fun i e => set1 e i (e 0 + axis (i - 1))) (fun _ => mid)

/-- `_zOptNMEvalAll`, zm_opt_nm.c:69-76. -/
def evalAll (env : Env K V) (s : NM K V) : NM K V :=
  let eval := forUp 0 env.num (fun i v => set1 v i (env.f (s.e i))) s.eval
  { s with eval := eval, index := env.srt eval s.index }

/-- `zIndexMove` of ZEDA, from a position to a smaller one. -/
def indexMove (idx : Nat → Nat) (src dst : Nat) : Nat → Nat :=
  fun k => if k < dst then idx k else if k = dst then idx src else if k ≤ src then idx (k - 1) else idx k

/-- The search of `_zOptNMReord`, zm_opt_nm.c:83-87, from the position `num - k`: the first vertex that is worse than the last one. -/
def reordPos (env : Env K V) (s : NM K V) : Nat → Option Nat
  | 0 => none
  | k+1 =>
    if s.eval (s.index (env.num - (k+1))) > s.eval (s.head env) then some (env.num - (k+1)) else reordPos env s k

/-- `_zOptNMReord`, zm_opt_nm.c:79-88. -/
def reord (env : Env K V) (s : NM K V) : NM K V :=
  match reordPos env s env.num with
  | some i => { s with index := indexMove s.index (env.num - 1) i }
  | none => s

/-- `_zOptNMPin`, zm_opt_nm.c:92-100. -/
def pin (env : Env K V) (s : NM K V) : V :=
  ((env.num - 1 : Nat) : K)⁻¹ • forUp 1 env.num (fun i p => p + s.e (s.index (i - 1))) 0

/-- `_zOptNMRefl`, zm_opt_nm.c:103-107. -/
def refl (env : Env K V) (s : NM K V) (p : V) : V := (2 : K) • p - s.e (s.head env)

/-- `_zOptNMExp`, zm_opt_nm.c:110-114. -/
def expd (eh p : V) : V := (2 : K) • eh - p

/-- `_zOptNMShrink`, zm_opt_nm.c:117-121. -/
def shrink (env : Env K V) (s : NM K V) (p : V) : V := (1/2 : K) • (s.e (s.head env) + p)

/-- `_zOptNMCrunch`, zm_opt_nm.c:124-133. -/
def crunch (env : Env K V) (s : NM K V) : NM K V :=
  { s with e := forUp 0 env.num (fun i e => if i ≠ s.tail then set1 e i ((1/2 : K) • (e i + e s.tail)) else e) s.e }

/-- `_zOptNMCheck`, zm_opt_nm.c:136-144. -/
def check (env : Env K V) (s : NM K V) : Bool := decide (∀ i < env.num, 1 ≤ i → |env.dist (s.e 0) (s.e i)| ≤ env.tol)

/-- The `do`-loop, zm_opt_nm.c:164-169: the test vertex `t` of the value `new` replaces the working vertex; the last accepted vertex and its value. -/
def expandLoop (env : Env K V) (p : V) : Nat → V → K → Res (V × K)
  | 0, _, _ => .ub
  | k+1, t, new =>
    if env.f (expd (K := K) t p) < new then expandLoop env p k (expd (K := K) t p) (env.f (expd (K := K) t p)) else .ok (t, new)

/-- `opt->e[head] = t; opt->eval[head] = v; _zOptNMReord( opt );`, zm_opt_nm.c:166-171, 183-185. -/
def accept (env : Env K V) (s : NM K V) (t : V) (v : K) : NM K V :=
  reord env { s with e := set1 s.e (s.head env) t, eval := set1 s.eval (s.head env) v }

/-- One turn of `_zOptNMTry` after the check, zm_opt_nm.c:159-185. -/
def turn (env : Env K V) (fuel : Nat) (s : NM K V) : Res (NM K V) :=
  let p := pin env s
  let t := refl env s p
  if env.f t < s.eval s.tail then
    match expandLoop env p fuel t (env.f t) with
    | .ok (t, v) => .ok (accept env s t v)
    | .fail => .fail
    | .ub => .ub
  else if env.f t > s.eval (s.neck env) then
    if env.f (shrink env s p) > s.eval (s.neck env) then .ok (evalAll env (crunch env s))
    else .ok (accept env s (shrink env s p) (env.f (shrink env s p)))
  else .ok (accept env s t (env.f t))

/-- The loop of `_zOptNMTry`, zm_opt_nm.c:153-188: the number of turns with the answer, or nothing after the last turn. -/
def tryLoop (env : Env K V) (fuel : Nat) : Nat → Nat → NM K V → Res (Option (Nat × V × K))
  | 0, _, _ => .ok none
  | k+1, i, s =>
    if check env s then .ok (some (i, s.e s.tail, s.eval s.tail))
    else
      match turn env fuel s with
      | .ok s => tryLoop env fuel k (i+1) s
      | .fail => .fail
      | .ub => .ub

/-- `zOptSolveNM`, zm_opt_nm.c:192-207; the index is created as 0, 1, 2, … -/
def zOptSolveNM (env : Env K V) (fuel : Nat) (mid : V) (axis : Nat → V) (iter : Int) : Res (Option (Nat × V × K)) :=
  tryLoop env fuel (OneD.iterInit iter) 0 (evalAll env { e := init env mid axis, eval := fun _ => 0, index := fun i => i })

end Zm.NM
