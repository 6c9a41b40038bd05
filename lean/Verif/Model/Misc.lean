import Verif.Base.Res
import Mathlib.Algebra.Order.Field.Basic
import Mathlib.Algebra.Order.Ring.Abs

/-!
# Model of `src/zm_misc.c`

`double` is an exact (ordered) field `K`; `unsigned int`/`int` are `Nat`/`Int` without overflow.
-/

namespace Zm.Misc
open Zm

variable {K : Type*}

/-- `zPowN` loop, zm_misc.c:54-62: `while( n > 0 ){ if( n%2==0 ){ x*=x; n>>=1; } else{ ret*=x; n--; } }`. -/
def zPowNLoop [Monoid K] (x ret : K) (n : Nat) : K :=
  if n = 0 then ret
  else if n % 2 = 0 then zPowNLoop (x * x) ret (n / 2)
  else zPowNLoop x (ret * x) (n - 1)
termination_by n

/-- `zPowN`, zm_misc.c:50-64. -/
def zPowN [Monoid K] (x : K) (n : Nat) : K := zPowNLoop x 1 n

/-- `zLine`, zm_misc.c:67-70. -/
def zLine [Field K] (x x0 y0 x1 y1 : K) : K := ((y1 - y0) * x - x0 * y1 - x1 * y0) / (x1 - x0)

/-- Loop of `zPermutation`, zm_misc.c:106: `for( ; i>0; i--, n-- ) result *= n;` (`i` iterations left). -/
def zPermutationLoop [Ring K] : Nat → Int → K → K
  | 0, _, result => result
  | i+1, n, result => zPermutationLoop i (n - 1) (result * (n : K))

/-- `zPermutation`, zm_misc.c:101-108. -/
def zPermutation [Ring K] (n i : Int) : K :=
  if i > n ∨ i < 0 then 0 else zPermutationLoop i.toNat n 1

/-- `zFactorial`, zm_misc.c:111-114. -/
def zFactorial [Ring K] (n : Int) : K := zPermutation n n

/-- `zCombination`, zm_misc.c:117-128 (a non-positive bound means no iteration, as in C). -/
def zCombination [Field K] (n i : Int) : K :=
  let i := if n - i < i then n - i else i
  if i = 0 then 1
  else forUp 0 i.toNat (fun j val => val * (((n - j : Int) : K) / ((i - j : Int) : K))) 1

/-- NaN-propagating addition: `none` is NaN. -/
def nanAdd [Add K] : Option K → Option K → Option K
  | some a, some b => some (a + b)
  | _, _ => none

/-- `zCombinationRecursive`, zm_misc.c:131-137; `none` models the returned `NAN`. -/
def zCombinationRecursive [Ring K] (n i : Int) : Option K :=
  if n ≤ 0 then some 1
  else if i = 0 ∨ i = n then some 1
  else if i < 0 ∨ i > n then none
  else nanAdd (zCombinationRecursive (n-1) (i-1)) (zCombinationRecursive (n-1) i)
termination_by n.toNat
decreasing_by all_goals omega

/-- Inner loop of `zCombinationSeries`, zm_misc.c:151-152: `for( j=i-1; j>0; j-- ) c[j] += c[j-1];`. -/
def zCombinationSeriesInner [Ring K] (i : Nat) (c : Mem K) : Res (Mem K) :=
  forDownM 1 i (fun j c => do c.wr j ((← c.rd j) + (← c.rd (j-1)))) c

/-- `zCombinationSeries`, zm_misc.c:140-155. `c` is the caller's array; `size` is the size claimed by the caller. -/
def zCombinationSeries [Ring K] (n size : Nat) (c : Mem K) : Res (Mem K) :=
  if n ≥ size then .fail
  else forUpM 0 (n+1) (fun i c => do zCombinationSeriesInner i (← c.wr i 1)) c

/-- `zIsTol`, include/zm/zm_misc.h:33: `fabs(x) <= tol`. -/
def zIsTol [Lattice K] [AddGroup K] [DecidableLE K] (x tol : K) : Bool := decide (|x| ≤ tol)

/-- A `double` for comparison purposes: a finite number, one of the infinities, or NaN. -/
inductive Dbl (K : Type*) where
  | fin (x : K)
  | inf (neg : Bool)
  | nan

/-- `zEqual`, zm_misc.c:22-26: false if either is not finite, else `|a-b| <= tol*max(1,max(|a|,|b|))`. -/
def zEqual [Field K] [LinearOrder K] (a b : Dbl K) (tol : K) : Bool :=
  match a, b with
  | .fin a, .fin b => zIsTol (a - b) (tol * max 1 (max |a| |b|))
  | _, _ => false

/-- `pow( x, k )` with a non-negative integer exponent (C library, trusted). -/
def cpow [Monoid K] (x : K) (k : Nat) : K := x ^ k

/-- `zSmoothStep`, zm_misc.c:158-170. -/
def zSmoothStep [Field K] [LinearOrder K] (x : K) (order : Nat) : K :=
  if x ≤ 0 then 0
  else if x ≥ 1 then 1
  else
    let val := forUp 0 (order+1) (fun k val =>
      let c := zCombination (order + k : Int) k * zCombination (2 * order + 1 : Int) ((order : Int) - k) * cpow x k
      val + (if k % 2 ≠ 0 then -c else c)) 0
    val * cpow x (order + 1)

/-- `zSmoothStepDif`, zm_misc.c:173-184. -/
def zSmoothStepDif [Field K] [LinearOrder K] (x : K) (order : Nat) : K :=
  if x ≤ 0 ∨ x ≥ 1 then 0
  else
    let val := forUp 0 (order+1) (fun k val =>
      let c := ((order + k + 1 : Nat) : K) * zCombination (order + k : Int) k
        * zCombination (2 * order + 1 : Int) ((order : Int) - k) * cpow x k
      val + (if k % 2 ≠ 0 then -c else c)) 0
    val * cpow x order

end Zm.Misc
