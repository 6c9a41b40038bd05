import Verif.Model.Pex
import Verif.Model.Complex

/-!
# Polynomial equations (zm_pex_eq.c)

The solvers by Bairstow and Hitchcock and by Durand, Kerner and Aberth.  A polynomial of degree `n` is the function of its coefficients
`a 0 .. a n`, the answers are a function `Nat → ℂ`.  `double` is ℝ.  Allocations are taken to succeed.  The Boolean of a result says whether
the iteration gave up with a warning.  `tolz` is `zTOL`.
-/

namespace Zm.PexEq
open Zm Pex Cplx

noncomputable section

/-- Coefficients of the quotient by `x^2 + p x + q`: `_zPexBH`, zm_pex_eq.c:28-31.  `b` holds `n+1` values. -/
def bhB (a : Nat → ℝ) (n : Nat) (p q : ℝ) (b : Nat → ℝ) : Nat → ℝ :=
  let b := set1 b n (a n)
  let b := set1 b (n-1) (a (n-1) - p * b n)
  forUp 2 (n+1) (fun j b => set1 b (n-j) (a (n-j) - p * b (n-j+1) - q * b (n-j+2))) b

/-- Gradient of the coefficients: `_zPexBH`, zm_pex_eq.c:33-36.  `c` holds `n` values. -/
def bhC (b : Nat → ℝ) (n : Nat) (p q : ℝ) (c : Nat → ℝ) : Nat → ℝ :=
  let c := set1 c (n-1) (b n)
  let c := set1 c (n-2) (b (n-1) - p * c (n-1))
  forDown 0 (n-2) (fun j c => set1 c j (b (j+1) - p * c (j+1) - q * c (j+2))) c

/-- Newton's correction of `p` and `q`: `_zPexBH`, zm_pex_eq.c:38-40.  A vanishing determinant is `ub`. -/
def bhDelta (b c : Nat → ℝ) : Res (ℝ × ℝ) :=
  if c 1 * c 1 + (b 1 - c 0) * c 2 = 0 then .ub
  else
    let d := 1 / (c 1 * c 1 + (b 1 - c 0) * c 2)
    .ok ((b 1 * c 1 - b 0 * c 2) * d, (b 0 * c 1 + b 1 * (b 1 - c 0)) * d)

/-- Loop of `_zPexBH`, zm_pex_eq.c:26-46; the first argument is the number of turns left. -/
def bhLoop (a : Nat → ℝ) (n : Nat) (tol : ℝ) : Nat → ℝ → ℝ → (Nat → ℝ) → (Nat → ℝ) → Res (ℝ × ℝ × (Nat → ℝ) × Bool)
  | 0, p, q, b, _ => .ok (p, q, b, true)
  | k+1, p, q, b, c =>
    let b := bhB a n p q b
    let c := bhC b n p q c
    (bhDelta b c).bind fun (dp, dq) =>
      if |dp| ≤ tol ∧ |dq| ≤ tol then .ok (p, q, b, false) else bhLoop a n tol k (p + dp) (q + dq) b c

/-- `ZITERINIT`, zm_misc.h:97, with `Z_MAX_ITER_NUM`. -/
def iterInit (iter : Int) : Nat := if iter ≤ 0 then 10000 else iter.toNat

/-- `_zPexBH`, zm_pex_eq.c:12-55: `p`, `q` and the coefficients of the quotient. -/
def bh (p q : ℝ) (a : Nat → ℝ) (n : Nat) (tol : ℝ) (iter : Int) : Res (ℝ × ℝ × (Nat → ℝ) × Bool) :=
  (bhLoop a n tol (iterInit iter) p q (fun _ => 0) (fun _ => 0)).bind fun (p, q, b, w) =>
    .ok (p, q, forUp 2 (n+1) (fun j a => set1 a (j-2) (b j)) a, w)

/-- The two answers of a quadratic equation at `ans[i]`, `ans[i+1]`; the outcome of `zQESolve` is not looked at, zm_pex_eq.c:71, 80. -/
def putQE (ans : Nat → ℂ) (i : Nat) : Res (ℂ × ℂ) → Res (Nat → ℂ)
  | .ok (z1, z2) => .ok (set1 (set1 ans i z1) (i+1) z2)
  | .fail => .ok ans
  | .ub => .ub

/-- `zPexBHDST`, zm_pex_eq.c:65-83, for degree `n`. -/
def bhdst (tol : ℝ) (iter : Int) : Nat → (Nat → ℝ) → (Nat → ℂ) → Res ((Nat → ℂ) × Bool)
  | 0, _, ans => .ok (ans, false)
  | 1, a, ans => if a 1 = 0 then .ub else .ok (set1 ans 0 ⟨-a 0 / a 1, 0⟩, false)
  | 2, a, ans => (putQE ans 0 (zQESolve (a 2) (a 1) (a 0))).bind fun ans => .ok (ans, false)
  | n+3, a, ans =>
    (bh (a 1 + 1) (a 0 + 1) a (n+3) tol iter).bind fun (p, q, a, w) =>
    (putQE ans (n+1) (zQESolve 1 p q)).bind fun ans =>
    (bhdst tol iter (n+1) a ans).bind fun (ans, w') => .ok (ans, w || w')

/-- The tolerance that is used: zm_pex_eq.c:64, 123 with `ZM_PEX_EQ_TOL`, zm_pex_eq.h:36. -/
def useTol (tol : ℝ) : ℝ := if tol = 0 then 1 / 10000000 else tol

/-- `zCVecTouchup`, zm_cvec.c:45-52, of a vector of `size` elements. -/
def touchup (size : Nat) (ans : Nat → ℂ) (tol : ℝ) : Nat → ℂ := forUp 0 size (fun i v => set1 v i (zComplexTouchup (v i) tol)) ans

/-- `zPexBH`, zm_pex_eq.c:87-100, for a polynomial of degree `n` and `size` places for answers. -/
def zPexBH (tolz : ℝ) (n : Nat) (a : Nat → ℝ) (size : Nat) (ans : Nat → ℂ) (tol : ℝ) (iter : Int) : Res ((Nat → ℂ) × Bool) :=
  if n > size then .fail
  else (bhdst (useTol tol) iter n a ans).bind fun (ans, w) => .ok (touchup size ans tolz, w)

/-- Radius of Aberth's circle: `zPexDKA`, zm_pex_eq.c:127-130, from the coefficients `b` about the centre. -/
def dkaRadius (n : Nat) (b : Nat → ℝ) : ℝ :=
  forUp 1 (n+1) (fun i r0 => let r := ((n : ℝ) * |b (n - i) / b n|) ^ (1 / (i : ℝ)); if r0 < r then r else r0) 0

/-- Aberth's initialization: `zPexDKA`, zm_pex_eq.c:125-134.  A degree of zero (reading the coefficient of index -1) or a vanishing leading
coefficient (division by zero) is `ub`. -/
def dkaInit (n : Nat) (a : Nat → ℝ) (ans : Nat → ℂ) : Res (Nat → ℂ) :=
  if n = 0 ∨ a n = 0 then .ub
  else
    let s := a (n-1) / (a n * n)
    (zPexModulo { size := n+1, c := a } s { size := n+1, c := fun _ => 0 }).bind fun b =>
      let r0 := dkaRadius n b.c
      .ok (forUp 0 n (fun i ans =>
        let ans := set1 ans i (polar r0 ((2 * Real.pi * i + 1.5) / n))
        set1 ans i ⟨(ans i).re - s, (ans i).im⟩) ans)

/-- `zComplexCDiv` of two local variables, zm_complex_arith.c:100-107; a difference whose square is tiny leaves a variable without a value,
which is `ub`. -/
def cdiv (tolz : ℝ) (p d : ℂ) : Res ℂ :=
  match invVal tolz d with
  | .ok cc => .ok ⟨p.re * cc.re - p.im * cc.im, p.re * cc.im + p.im * cc.re⟩
  | _ => .ub

/-- Correction of one approximation: `zPexDKA`, zm_pex_eq.c:142-148.  `zComplexDiv` does nothing if the leading coefficient is tiny. -/
def dkaCorr (tolz an : ℝ) (n : Nat) (z : Nat → ℂ) (i : Nat) (p : ℂ) : Res ℂ :=
  (forUpM 0 n (fun j p => if j = i then .ok p else cdiv tolz p (z i - z j)) p).bind fun p =>
    .ok (if |an| ≤ tolz then p else ⟨p.re * (1 / an), p.im * (1 / an)⟩)

/-- One turn after the test: `zPexDKA`, zm_pex_eq.c:141-151. -/
def dkaStep (tolz an : ℝ) (n : Nat) (z p : Nat → ℂ) : Res (Nat → ℂ) :=
  (forUpM 0 n (fun i p => (dkaCorr tolz an n z i (p i)).bind fun w => .ok (set1 p i w)) p).bind fun p =>
    .ok (forUp 0 n (fun i z => set1 z i (z i - p i)) z)

/-- `zComplexIsTol`, zm_complex.h:80. -/
def isTol (c : ℂ) (tol : ℝ) : Prop := |c.re| ≤ tol ∧ |c.im| ≤ tol

open Classical in
/-- Loop of `zPexDKA`, zm_pex_eq.c:137-153. -/
def dkaLoop (tolz tol : ℝ) (n : Nat) (a : Nat → ℝ) : Nat → (Nat → ℂ) → Res ((Nat → ℂ) × Bool)
  | 0, z => .ok (z, true)
  | k+1, z =>
    let p : Nat → ℂ := fun i => zPexCVal { size := n+1, c := a } (z i)
    if ∀ i, i < n → isTol (p i) tol then .ok (z, false)
    else (dkaStep tolz (a n) n z p).bind fun z => dkaLoop tolz tol n a k z

/-- `zPexDKA`, zm_pex_eq.c:105-158. -/
def zPexDKA (tolz : ℝ) (n : Nat) (a : Nat → ℝ) (size : Nat) (ans : Nat → ℂ) (tol : ℝ) (iter : Int) : Res ((Nat → ℂ) × Bool) :=
  if n > size then .fail
  else (dkaInit n a ans).bind fun ans =>
    (dkaLoop tolz (useTol tol) n a (iterInit iter) ans).bind fun (ans, w) => .ok (touchup size ans tolz, w)

end
end Zm.PexEq
