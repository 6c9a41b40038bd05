import Verif.Base.Fn
import Mathlib.Algebra.Order.Field.Basic
import Mathlib.Algebra.Order.AbsoluteValue.Basic

/-!
# Genetic algorithm (zm_opt_ga.c)

The population is an array of chromosomes, `Nat → Chrom K` with the length `num`; an access outside of it is undefined
behaviour.  Genes are vectors (`Nat → K`, `n` elements).  The numbers drawn from the generator are given as arbitrary
sequences: `pr` for `zRandF(0,1)`, `un` for the elements of a random gene, of which `zRandF(min,max)` is
`min + u (max - min)`.  Allocation failures are left out.
-/

namespace Zm.GA
variable {K : Type*} [Field K] [LinearOrder K] [IsStrictOrderedRing K]

/-- `zOptGAChromosome`, zm_opt_ga.h:20-23. -/
structure Chrom (K : Type*) where
  fit : K
  gene : Nat → K

/-- The parameters in `zOptGA`, zm_opt_ga.h:76-85.  `ns` is the number of survivors, `population * rate_survival`
truncated (zm_opt_ga.c:206). -/
structure Env (K : Type*) where
  n : Nat
  num : Nat
  f : (Nat → K) → K
  lo : Nat → K
  hi : Nat → K
  ns : Nat
  rateMut : K
  tol : K

/-- The state in `zOptGA`. -/
structure GA (K : Type*) where
  ind : Nat → Chrom K
  eval : K

/-- The elements from `min` to `max`, `zRawVecRand`, zm_raw_vec.c:41-44, through `zOptGAChromosomeRand`, zm_opt_ga.c:44-48. -/
def chromRand (env : Env K) (un : Nat → K) (c : Chrom K) : Chrom K :=
  { c with gene := fun j => if j < env.n then env.lo j + un j * (env.hi j - env.lo j) else c.gene j }

/-- `zOptGAChromosomeXover`, zm_opt_ga.c:58-67: the elements are independent, so that `c` may be `c1` or `c2`; a zero
divisor makes no number. -/
def xover (n : Nat) (c1 c2 c : Chrom K) : Res (Chrom K) :=
  if c1.fit + c2.fit = 0 then .ub
  else
    let ratio := c1.fit / (c1.fit + c2.fit)
    .ok { c with gene := fun j => if j < n then c2.gene j + ratio * (c1.gene j - c2.gene j) else c.gene j }

/-! ## Quick sort -/

/-- `while( ga->individual[i].fitness > pivot ) i++;`, zm_opt_ga.c:141, with `i = num - k`. -/
def scanUp (p : Nat → Chrom K) (num : Nat) (pivot : K) : Nat → Res Nat
  | 0 => .ub
  | k+1 => if (p (num - (k+1))).fit > pivot then scanUp p num pivot k else .ok (num - (k+1))

/-- `while( ga->individual[j].fitness < pivot ) j--;`, zm_opt_ga.c:142, for `j + 1`. -/
def scanDown (p : Nat → Chrom K) (pivot : K) : Nat → Res Nat
  | 0 => .ub
  | k+1 => if (p k).fit < pivot then scanDown p pivot k else .ok (k+1)

/-- The loop of `_zOptGAQuickSort`, zm_opt_ga.c:140-145; `j1` is `j + 1`. -/
def part (num : Nat) (pivot : K) : Nat → (Nat → Chrom K) → Nat → Nat → Res ((Nat → Chrom K) × Nat × Nat)
  | 0, _, _, _ => .ub
  | k+1, p, i, j1 =>
    if i < j1 then
      match scanUp p num pivot (num - i) with
      | .ok i =>
        match scanDown p pivot j1 with
        | .ok j1 =>
          if j1 ≤ i then .ok (p, i, j1)
          else part num pivot k (swap1 p i (j1 - 1)) (i+1) (j1 - 1)
        | .fail => .fail
        | .ub => .ub
      | .fail => .fail
      | .ub => .ub
    else .ok (p, i, j1)

/-- `_zOptGAQuickSort`, zm_opt_ga.c:134-148; `k` bounds the depth. -/
def quickSort (num : Nat) : Nat → (Nat → Chrom K) → Nat → Nat → Res (Nat → Chrom K)
  | 0, _, _, _ => .ub
  | k+1, p, head, tail =>
    match part num (p ((head + tail) / 2)).fit (tail - head + 2) p head (tail + 1) with
    | .ok (p, i, j1) =>
      match (if head + 1 < j1 then quickSort num k p head (j1 - 1) else .ok p) with
      | .ok p => if i < tail then quickSort num k p i tail else .ok p
      | .fail => .fail
      | .ub => .ub
    | .fail => .fail
    | .ub => .ub

/-- The shift and the normalisation of the fitness, zm_opt_ga.c:159-171. -/
def normalise (env : Env K) (p : Nat → Chrom K) : Nat → Chrom K :=
  let fmin := (p (env.num - 1)).fit
  let s := forUp 0 env.num
    (fun i (s : (Nat → Chrom K) × K) =>
      let q := set1 s.1 i { s.1 i with fit := (s.1 i).fit - fmin }
      (q, s.2 + (q i).fit)) (p, 0)
  if |s.2| ≤ env.tol then forUp 0 env.num (fun i q => set1 q i { q i with fit := 1 }) s.1
  else forUp 0 env.num (fun i q => set1 q i { q i with fit := (q i).fit / s.2 }) s.1

/-- `_zOptGASort`, zm_opt_ga.c:151-172; without individuals the array is read outside. -/
def sort (env : Env K) (p : Nat → Chrom K) : Res (GA K) :=
  let p := forUp 0 env.num (fun i q => set1 q i { q i with fit := - env.f (q i).gene }) p
  if env.num = 0 then .ub
  else
    match quickSort env.num env.num p 0 (env.num - 1) with
    | .ok p => .ok { ind := normalise env p, eval := - (p 0).fit }
    | .fail => .fail
    | .ub => .ub

/-- `zOptGARand`, zm_opt_ga.c:175-183. -/
def zOptGARand (env : Env K) (un : Nat → Nat → K) (p : Nat → Chrom K) : Res (GA K) :=
  sort env (forUp 0 env.num (fun i q => set1 q i (chromRand env (un i) (q i))) p)

/-- The loop of `_zOptGASelect`, zm_opt_ga.c:192-195, from the individual `num - k`. -/
def selectGo (num : Nat) (p : Nat → Chrom K) (pr : K) : Nat → K → Nat
  | 0, _ => num - 1
  | k+1, rate =>
    if rate + (p (num - (k+1))).fit > pr then num - (k+1)
    else selectGo num p pr k (rate + (p (num - (k+1))).fit)

/-- `_zOptGASelect`, zm_opt_ga.c:186-196. -/
def select (num : Nat) (p : Nat → Chrom K) (pr : K) : Nat := selectGo num p pr num 0

/-- The numbers drawn for one generation: two for each crossover, one for each mutation, and the elements of mutants. -/
structure Draw (K : Type*) where
  sel1 : Nat → K
  sel2 : Nat → K
  pm : Nat → K
  un : Nat → Nat → K

/-- One crossover, zm_opt_ga.c:209-211. -/
def crossStep (env : Env K) (d : Draw K) (i : Nat) (q : Nat → Chrom K) : Res (Nat → Chrom K) :=
  match xover env.n (q (select env.num q (d.sel1 i))) (q (select env.num q (d.sel2 i))) (q i) with
  | .ok c => .ok (set1 q i c)
  | .fail => .fail
  | .ub => .ub

/-- The crossover of `zOptGAReproduce`, zm_opt_ga.c:208-212: replaced individuals take part in later selections, with the
fitness of the old ones. -/
def crossover (env : Env K) (d : Draw K) (p : Nat → Chrom K) : Res (Nat → Chrom K) :=
  forUpM env.ns env.num (crossStep env d) p

/-- The mutation of `zOptGAReproduce`, zm_opt_ga.c:214-216. -/
def mutate (env : Env K) (d : Draw K) (p : Nat → Chrom K) : Nat → Chrom K :=
  forUp 0 env.num (fun i q => if d.pm i < env.rateMut then set1 q i (chromRand env (d.un i) (q i)) else q) p

/-- `zOptGAReproduce`, zm_opt_ga.c:199-220. -/
def zOptGAReproduce (env : Env K) (d : Draw K) (ga : GA K) : Res (GA K) :=
  match crossover env d ga.ind with
  | .ok p => sort env (mutate env d p)
  | .fail => .fail
  | .ub => .ub

/-- `zOptGASolve`, zm_opt_ga.c:223-232: the generations (0 means 1000), and the answer with its value. -/
def zOptGASolve (env : Env K) (d : Nat → Draw K) (generation : Int) (ga : GA K) : Res ((Nat → K) × K) :=
  let g := if generation = 0 then 1000 else generation.toNat
  match forUpM 0 g (fun i ga => zOptGAReproduce env (d i) ga) ga with
  | .ok ga => .ok ((ga.ind 0).gene, ga.eval)
  | .fail => .fail
  | .ub => .ub

/-- `zOptSolveGA`, zm_opt_ga.c:235-244: the population is created, filled at random and solved for. -/
def zOptSolveGA (env : Env K) (un : Nat → Nat → K) (d : Nat → Draw K) (iter : Int) (p : Nat → Chrom K) : Res ((Nat → K) × K) :=
  match zOptGARand env un p with
  | .ok ga => zOptGASolve env d iter ga
  | .fail => .fail
  | .ub => .ub

end Zm.GA
