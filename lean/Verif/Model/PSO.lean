import Verif.Base.Fn
import Verif.Model.OneD
import Mathlib.Algebra.Order.Field.Basic
import Mathlib.Algebra.Order.AbsoluteValue.Basic

/-!
# Particle swarm optimisation (zm_opt_pso.c)

Vectors are functions `Nat → K` with `n` elements.  `swarm->best` is a pointer to the best position of a particle; it is
the number of that particle here, so that a later change of the position is seen through it.  Random numbers are given as
arbitrary sequences.
-/

namespace Zm.PSO
variable {K : Type*} [Field K] [LinearOrder K] [IsStrictOrderedRing K]

/-- `zOptPSOParticle`, zm_opt_pso.c:9-17, without the work spaces. -/
structure Particle (K : Type*) where
  x : Nat → K
  v : Nat → K
  mybest : Nat → K
  inertia : K
  eval : K

/-- The arguments of the solver. -/
structure Env (K : Type*) where
  n : Nat
  num : Nat
  f : (Nat → K) → K
  lo : Nat → K
  hi : Nat → K
  vlo : Nat → K
  vhi : Nat → K
  c1 : K
  c2 : K
  tol : K

/-- `zOptPSOSwarm`, zm_opt_pso.c:80-87. -/
structure Swarm (K : Type*) where
  particle : Nat → Particle K
  best : Nat
  eval : K

/-- `zLimit` of ZEDA. -/
def zLimit (v lo hi : K) : K := if v < lo then lo else if v > hi then hi else v

/-- `_zOptPSOParticleCreate`, zm_opt_pso.c:29-46, with the random numbers `r1`, `r2` and the inertia. -/
def create (env : Env K) (r1 r2 inertia : K) : Particle K :=
  let x := fun j => env.lo j + r1 * (env.hi j - env.lo j)
  { x := x, v := fun j => env.vlo j + r2 * (env.vhi j - env.vlo j), mybest := x, inertia := inertia, eval := env.f x }

/-- One axis in the loop of `_zOptPSOParticleUpdate`, zm_opt_pso.c:57-70: the new position and velocity. -/
def axis (env : Env K) (inertia : K) (r1 r2 : K) (dmybest dbest : K) (i : Nat) (x v : K) : K × K :=
  let v := zLimit (inertia * v + env.c1 * r1 * dmybest + env.c2 * r2 * dbest) (env.vlo i) (env.vhi i)
  let x := x + v
  if x > env.hi i then (env.hi i, -v)
  else if x < env.lo i then (env.lo i, -v)
  else (x, v)

/-- `_zOptPSOParticleUpdate`, zm_opt_pso.c:49-77. -/
def update (env : Env K) (best : Nat → K) (r1 r2 : Nat → K) (p : Particle K) : Particle K × Bool :=
  let dmybest := fun i => p.mybest i - p.x i
  let dbest := fun i => best i - p.x i
  let xv := forUp 0 env.n
    (fun i (s : (Nat → K) × (Nat → K)) =>
      (set1 s.1 i (axis env p.inertia (r1 i) (r2 i) (dmybest i) (dbest i) i (s.1 i) (s.2 i)).1,
       set1 s.2 i (axis env p.inertia (r1 i) (r2 i) (dmybest i) (dbest i) i (s.1 i) (s.2 i)).2)) (p.x, p.v)
  let eval := env.f xv.1
  let p := { p with x := xv.1, v := xv.2 }
  (if eval < p.eval then { p with mybest := xv.1, eval := eval } else p,
   decide (∀ i < env.n, |xv.2 i| ≤ env.tol))

/-- `_zOptPSOSwarmFindBest`, zm_opt_pso.c:93-106. -/
def findBest (env : Env K) (s : Swarm K) : Swarm K :=
  forUp 1 env.num
    (fun i s => if (s.particle i).eval < s.eval then { s with best := i, eval := (s.particle i).eval } else s)
    { s with best := 0, eval := (s.particle 0).eval }

/-- `_zOptPSOSwarmUpdate`, zm_opt_pso.c:138-148; the position of the best particle is read anew for each particle. -/
def swarmUpdate (env : Env K) (r1 r2 : Nat → Nat → K) (s : Swarm K) : Swarm K × Bool :=
  let s := findBest env s
  forUp 0 env.num
    (fun i (t : Swarm K × Bool) =>
      let u := update env (t.1.particle t.1.best).mybest (r1 i) (r2 i) (t.1.particle i)
      ({ t.1 with particle := set1 t.1.particle i u.1 }, t.2 && u.2)) (s, true)

/-- `_zOptPSOSwarmCreate`, zm_opt_pso.c:119-135. -/
def swarmCreate (env : Env K) (r1 r2 inertia : Nat → K) : Swarm K :=
  findBest env { particle := fun i => create env (r1 i) (r2 i) (inertia i), best := 0, eval := 0 }

/-- The loop of `zOptSolvePSO`, zm_opt_pso.c:182-184. -/
def solveLoop (env : Env K) (r1 r2 : Nat → Nat → Nat → K) : Nat → Nat → Swarm K → Swarm K
  | 0, _, s => s
  | k+1, i, s =>
    let u := swarmUpdate env (r1 i) (r2 i) s
    if u.2 then u.1 else solveLoop env r1 r2 k (i+1) u.1

/-- `zOptSolvePSO`, zm_opt_pso.c:164-192, without the checks of the sizes: the velocities are limited by the widths of the box times the rate, no
particles cannot be allocated, and the answer is the position that `swarm->best` points to. -/
def zOptSolvePSO (n num : Nat) (f : (Nat → K) → K) (lo hi : Nat → K) (c1 c2 velRate tol : K) (iter : Int)
    (c1r c2r inertia : Nat → K) (r1 r2 : Nat → Nat → Nat → K) : Res ((Nat → K) × K) :=
  let vhi := fun j => (hi j - lo j) * velRate
  let env : Env K := { n := n, num := num, f := f, lo := lo, hi := hi, vlo := fun j => - vhi j, vhi := vhi, c1 := c1, c2 := c2, tol := tol }
  if num = 0 then .fail
  else
    let s := solveLoop env r1 r2 (OneD.iterInit iter) 0 (swarmCreate env c1r c2r inertia)
    .ok ((s.particle s.best).mybest, s.eval)

end Zm.PSO
