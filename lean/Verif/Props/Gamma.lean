import Verif.Model.SF
import Mathlib.Analysis.Convex.Deriv
import Mathlib.Analysis.SpecialFunctions.Gamma.BohrMollerup
import Mathlib.Analysis.SpecialFunctions.Stirling
import Mathlib.Analysis.SpecialFunctions.Complex.LogBounds
import Mathlib.Analysis.SpecialFunctions.Log.Deriv
import Mathlib.Analysis.Real.Pi.Bounds

/-!
# Gamma and beta function (C123)

The logarithm of the quotient of Lanczos's approximation and the gamma function changes little from `x` to `x+1`: the change is a function whose second derivative is
rational, and dominated by that of `ε (1/(x+10) - 1/(x+11))`.  The difference of the two is convex and tends to zero, hence not negative.  The sum of the changes
telescopes, and far away Stirling's formula applies.
-/
set_option linter.unusedSectionVars false

namespace Zm.SF
open Zm Filter Topology

/-! ## Polynomials with integer coefficients as lists, evaluated by the kernel -/

/-- Value of a polynomial, the constant term first. -/
def ev : List ℤ → ℝ → ℝ
  | [], _ => 0
  | a :: p, x => a + x * ev p x

/-- Sum. -/
def padd : List ℤ → List ℤ → List ℤ
  | [], q => q
  | p, [] => p
  | a :: p, b :: q => (a + b) :: padd p q

/-- Multiple. -/
def psmul (k : ℤ) : List ℤ → List ℤ
  | [] => []
  | a :: p => (k * a) :: psmul k p

/-- Product. -/
def pmul : List ℤ → List ℤ → List ℤ
  | [], _ => []
  | a :: p, q => padd (psmul a q) (0 :: pmul p q)

/-- Derivative. -/
def pder : List ℤ → List ℤ
  | [] => []
  | _ :: p => padd p (0 :: pder p)

/-- Shift of the argument by one. -/
def pshift : List ℤ → List ℤ
  | [] => []
  | a :: p => padd [a] (pmul [1, 1] (pshift p))

theorem ev_padd (x : ℝ) : ∀ p q, ev (padd p q) x = ev p x + ev q x
  | [], q => by simp [padd, ev]
  | a :: p, [] => by simp [padd, ev]
  | a :: p, b :: q => by
    rw [padd, ev, ev, ev, ev_padd x p q]
    push_cast
    ring

theorem ev_psmul (x : ℝ) (k : ℤ) : ∀ p, ev (psmul k p) x = k * ev p x
  | [] => by simp [psmul, ev]
  | a :: p => by
    rw [psmul, ev, ev, ev_psmul x k p]
    push_cast
    ring

theorem ev_pmul (x : ℝ) (q : List ℤ) : ∀ p, ev (pmul p q) x = ev p x * ev q x
  | [] => by simp [pmul, ev]
  | a :: p => by
    rw [pmul, ev_padd, ev_psmul, ev, ev, ev_pmul x q p]
    push_cast
    ring

theorem ev_pshift (x : ℝ) : ∀ p, ev (pshift p) x = ev p (x+1)
  | [] => rfl
  | a :: p => by
    rw [pshift, ev_padd, ev_pmul, ev_pshift x p]
    simp only [ev]
    push_cast
    ring

theorem ev_deriv : ∀ p x, HasDerivAt (ev p) (ev (pder p) x) x
  | [], x => hasDerivAt_const x 0
  | a :: p, x => by
    have h := ((hasDerivAt_id x).mul (ev_deriv p x)).const_add (a:ℝ)
    have e : ev (pder (a :: p)) x = 1 * ev p x + id x * ev (pder p) x := by
      rw [pder, ev_padd, ev]
      simp only [id]
      push_cast
      ring
    rw [e]
    exact h

theorem ev_nonneg (x : ℝ) (hx : 0 ≤ x) : ∀ p : List ℤ, (∀ a ∈ p, 0 ≤ a) → 0 ≤ ev p x
  | [], _ => le_refl _
  | a :: p, h => by
    have h1 : (0:ℝ) ≤ a := by exact_mod_cast h a (List.mem_cons_self ..)
    have h2 := ev_nonneg x hx p (fun b hb => h b (List.mem_cons_of_mem _ hb))
    rw [ev]
    positivity

/-! ## The approximation -/

/-- The partial fractions. -/
noncomputable def sL (x : ℝ) : ℝ := 1.000000000190015 - 0.000005395239384953 / (x+6) + 0.001208650973866179 / (x+5) - 1.231739572450155 / (x+4) + 24.01409824083091 / (x+3) -
  86.50532032941677 / (x+2) + 76.18009172947146 / (x+1)

/-- The numerator of the partial fractions, times 10^18. -/
def PZ : List ℤ := [29969594579836125835416, 32281064054924600224874, 14484914063712144717115, 3465709449213182926000, 466334201454058024569, 33458333328160241226, 1000000000190015000]

theorem sL_eq (x : ℝ) (hx : 0 ≤ x) : sL x = ev PZ x / (10^18 * ((x+1)*(x+2)*(x+3)*(x+4)*(x+5)*(x+6))) := by
  have h1 : x+1 ≠ 0 := by positivity
  have h2 : x+2 ≠ 0 := by positivity
  have h3 : x+3 ≠ 0 := by positivity
  have h4 : x+4 ≠ 0 := by positivity
  have h5 : x+5 ≠ 0 := by positivity
  have h6 : x+6 ≠ 0 := by positivity
  simp only [sL, PZ, ev]
  rw [eq_div_iff (by positivity)]
  push_cast
  norm_num
  field_simp
  ring

theorem PZ_pos (x : ℝ) (hx : 0 ≤ x) : 0 < ev PZ x := by
  rw [PZ, ev]
  have := ev_nonneg x hx [32281064054924600224874, 14484914063712144717115, 3465709449213182926000, 466334201454058024569, 33458333328160241226, 1000000000190015000] (by decide)
  have h2 := mul_nonneg hx this
  push_cast
  linarith

theorem sL_pos (x : ℝ) (hx : 0 ≤ x) : 0 < sL x := by
  rw [sL_eq x hx]
  have := PZ_pos x hx
  positivity

theorem gammaSeed_eq (x : ℝ) : gammaSeed x = 2.5066282746310005 * sL x / x := rfl

theorem gammaSeed_pos (x : ℝ) (hx : 0 < x) : 0 < gammaSeed x := by
  rw [gammaSeed_eq]
  have := sL_pos x hx.le
  positivity

theorem zLnGamma_eq (x : ℝ) (hx : 0 < x) : zLnGamma x = Real.log (zGamma x) ∧ 0 < zGamma x := by
  have h := gammaSeed_pos x hx
  unfold zLnGamma zGamma
  rw [Real.log_mul (Real.exp_pos _).ne' h.ne', Real.log_exp]
  exact ⟨rfl, by positivity⟩

theorem zLnGamma_exp (x : ℝ) (hx : 0 < x) : zLnGamma x = gammaBias x + Real.log 2.5066282746310005 + Real.log (sL x) - Real.log x := by
  have := sL_pos x hx.le
  rw [zLnGamma, gammaSeed_eq, Real.log_div (by positivity) hx.ne', Real.log_mul (by norm_num) this.ne']
  ring

/-- The change of the logarithm of the quotient. -/
noncomputable def dlt (x : ℝ) : ℝ := (x + 1.5) * Real.log (x + 6.5) - (x + 0.5) * Real.log (x + 5.5) - 1 + Real.log (ev (pshift PZ) x) - Real.log (ev PZ x) - Real.log (x + 7)

theorem dlt_eq (x : ℝ) (hx : 0 < x) : dlt x = gammaBias (x+1) - gammaBias x + Real.log (sL (x+1)) - Real.log (sL x) - Real.log (x+1) ∧
    dlt x = zLnGamma (x+1) - zLnGamma x - Real.log x := by
  have e1 : Real.log (sL x) = Real.log (ev PZ x) - (Real.log (10^18) + (Real.log (x+1) + Real.log ((x+2)*(x+3)*(x+4)*(x+5)*(x+6)))) := by
    rw [sL_eq x hx.le, Real.log_div (PZ_pos x hx.le).ne' (by positivity), Real.log_mul (by positivity) (by positivity), ← Real.log_mul (x := x+1) (by positivity) (by positivity)]
    congr 3
    ring
  have e2 : Real.log (sL (x+1)) = Real.log (ev (pshift PZ) x) - (Real.log (10^18) + (Real.log ((x+2)*(x+3)*(x+4)*(x+5)*(x+6)) + Real.log (x+7))) := by
    rw [sL_eq (x+1) (by linarith), ev_pshift, Real.log_div (PZ_pos (x+1) (by linarith)).ne' (by positivity), Real.log_mul (by positivity) (by positivity),
      ← Real.log_mul (y := x+7) (by positivity) (by positivity)]
    congr 3
    ring
  have e : dlt x = gammaBias (x+1) - gammaBias x + Real.log (sL (x+1)) - Real.log (sL x) - Real.log (x+1) := by
    rw [e1, e2, dlt, gammaBias, gammaBias, show x + 1 + 0.5 = x + 1.5 by norm_num; ring, show x + 1 + 5.5 = x + 6.5 by norm_num; ring]
    ring
  refine ⟨e, ?_⟩
  rw [e, zLnGamma_exp x hx, zLnGamma_exp (x+1) (by linarith)]
  ring

/-! ## Limits -/

theorem log_add (x a : ℝ) (hx : 0 < x) (ha : 0 ≤ a) : Real.log (x + a) = Real.log x + Real.log (1 + a / x) := by
  rw [← Real.log_mul hx.ne' (by positivity)]
  congr 1
  field_simp

theorem lim_div (a : ℝ) : Tendsto (fun x : ℝ => a / x) atTop (𝓝 0) := tendsto_const_nhds.div_atTop tendsto_id

theorem lim_log (a : ℝ) : Tendsto (fun x : ℝ => Real.log (1 + a / x)) atTop (𝓝 0) := by
  have h := (lim_div a).const_add 1
  rw [add_zero] at h
  have := h.log (by norm_num)
  rwa [Real.log_one] at this

theorem lim_frac (a b : ℝ) : Tendsto (fun x : ℝ => a / (x + b)) atTop (𝓝 0) := tendsto_const_nhds.div_atTop (tendsto_atTop_add_const_right _ _ tendsto_id)

theorem sL_lim : Tendsto sL atTop (𝓝 1.000000000190015) := by
  have := (((((((tendsto_const_nhds (x := (1.000000000190015:ℝ))).sub (lim_frac 0.000005395239384953 6)).add (lim_frac 0.001208650973866179 5)).sub (lim_frac 1.231739572450155 4)).add
    (lim_frac 24.01409824083091 3)).sub (lim_frac 86.50532032941677 2)).add (lim_frac 76.18009172947146 1))
  simp only [sub_zero, add_zero] at this
  exact this

theorem dlt_lim : Tendsto dlt atTop (𝓝 0) := by
  have h1 := Real.tendsto_mul_log_one_add_div_atTop 6.5
  have h2 := Real.tendsto_mul_log_one_add_div_atTop 5.5
  have h3 := (lim_log 6.5).const_mul 1.5
  have h4 := (lim_log 5.5).const_mul 0.5
  have h5 := lim_log 1
  have h6 := sL_lim.log (by norm_num)
  have h7 := (sL_lim.comp (tendsto_atTop_add_const_right atTop (1:ℝ) tendsto_id)).log (by norm_num)
  have h := ((((((h1.sub h2).add h3).sub h4).sub h5).add h7).sub h6).sub_const 1
  have e0 : ((6.5:ℝ) - 5.5 + 1.5 * 0 - 0.5 * 0 - 0 + Real.log 1.000000000190015 - Real.log 1.000000000190015 - 1) = 0 := by norm_num
  rw [e0] at h
  refine h.congr' ?_
  filter_upwards [eventually_gt_atTop (0:ℝ)] with x hx
  rw [(dlt_eq x hx).1, gammaBias, gammaBias, show x + 1 + 0.5 = x + 1.5 by norm_num; ring, show x + 1 + 5.5 = x + 6.5 by norm_num; ring, log_add x 6.5 hx (by norm_num),
    log_add x 5.5 hx (by norm_num), log_add x 1 hx (by norm_num)]
  simp only [Function.comp, id]
  ring

/-! ## The second derivative -/

/-- The first derivative of the change. -/
noncomputable def dlt1 (x : ℝ) : ℝ := Real.log (x + 6.5) + (x + 1.5) / (x + 6.5) - (Real.log (x + 5.5) + (x + 0.5) / (x + 5.5)) + ev (pder (pshift PZ)) x / ev (pshift PZ) x - ev (pder PZ) x / ev PZ x -
  1 / (x + 7)

/-- The second derivative of the change. -/
noncomputable def dlt2 (x : ℝ) : ℝ := 1 / (x + 6.5) + 5 / (x + 6.5)^2 - (1 / (x + 5.5) + 5 / (x + 5.5)^2) +
  (ev (pder (pder (pshift PZ))) x * ev (pshift PZ) x - ev (pder (pshift PZ)) x * ev (pder (pshift PZ)) x) / ev (pshift PZ) x ^ 2 -
  (ev (pder (pder PZ)) x * ev PZ x - ev (pder PZ) x * ev (pder PZ) x) / ev PZ x ^ 2 + 1 / (x + 7)^2

theorem P1_pos (x : ℝ) (hx : 0 ≤ x) : 0 < ev (pshift PZ) x := by rw [ev_pshift]; exact PZ_pos _ (by linarith)

theorem dlt_deriv (x : ℝ) (hx : 0 < x) : HasDerivAt dlt (dlt1 x) x := by
  have l : ∀ a : ℝ, 0 < a → HasDerivAt (fun y : ℝ => Real.log (y + a)) (1 / (x + a)) x := fun a ha => ((hasDerivAt_id x).add_const a).log (by simp only [id]; positivity)
  have m : ∀ a : ℝ, HasDerivAt (fun y : ℝ => y + a) 1 x := fun a => (hasDerivAt_id x).add_const a
  have h := ((((((m 1.5).mul (l 6.5 (by norm_num))).sub ((m 0.5).mul (l 5.5 (by norm_num)))).sub_const 1).add ((ev_deriv (pshift PZ) x).log (P1_pos x hx.le).ne')).sub ((ev_deriv PZ x).log (PZ_pos x hx.le).ne')).sub
    (l 7 (by norm_num))
  refine HasDerivAt.congr_deriv (f := dlt) h ?_
  rw [dlt1]
  ring

theorem dlt1_deriv (x : ℝ) (hx : 0 < x) : HasDerivAt dlt1 (dlt2 x) x := by
  have l : ∀ a : ℝ, 0 < a → HasDerivAt (fun y : ℝ => Real.log (y + a)) (1 / (x + a)) x := fun a ha => ((hasDerivAt_id x).add_const a).log (by simp only [id]; positivity)
  have m : ∀ a : ℝ, HasDerivAt (fun y : ℝ => y + a) 1 x := fun a => (hasDerivAt_id x).add_const a
  have q : ∀ a b : ℝ, 0 < b → HasDerivAt (fun y : ℝ => (y + a) / (y + b)) ((1 * (x + b) - (x + a) * 1) / (x + b)^2) x := fun a b hb => (m a).div (m b) (by positivity)
  have r : HasDerivAt (fun y : ℝ => 1 / (y + 7)) ((0 * (x + 7) - 1 * 1) / (x + 7)^2) x := (hasDerivAt_const x (1:ℝ)).div (m 7) (by positivity)
  have h := (((((l 6.5 (by norm_num)).add (q 1.5 6.5 (by norm_num))).sub ((l 5.5 (by norm_num)).add (q 0.5 5.5 (by norm_num)))).add ((ev_deriv (pder (pshift PZ)) x).div (ev_deriv (pshift PZ) x) (P1_pos x hx.le).ne')).sub
    ((ev_deriv (pder PZ) x).div (ev_deriv PZ x) (PZ_pos x hx.le).ne')).sub r
  refine HasDerivAt.congr_deriv (f := dlt1) h ?_
  rw [dlt2]
  have e1 : 1 * (x + 6.5) - (x + 1.5) * 1 = 5 := by norm_num
  have e2 : 1 * (x + 5.5) - (x + 0.5) * 1 = 5 := by norm_num
  rw [e1, e2]
  ring

/-- The constant of the bound. -/
noncomputable def eps : ℝ := 116 / 10^10

/-- The dominating function, its first and second derivative. -/
noncomputable def dom (x : ℝ) : ℝ := eps * (1 / (x + 10) - 1 / (x + 11))
/-- First derivative. -/
noncomputable def dom1 (x : ℝ) : ℝ := eps * (-(1 / (x + 10)^2) + 1 / (x + 11)^2)
/-- Second derivative. -/
noncomputable def dom2 (x : ℝ) : ℝ := eps * (2 / (x + 10)^3 - 2 / (x + 11)^3)

theorem dom_deriv (x : ℝ) (hx : 0 < x) : HasDerivAt dom (dom1 x) x := by
  have m : ∀ a : ℝ, 0 < a → HasDerivAt (fun y : ℝ => 1 / (y + a)) ((0 * (x + a) - 1 * 1) / (x + a)^2) x := fun a ha => (hasDerivAt_const x (1:ℝ)).div ((hasDerivAt_id x).add_const a) (by positivity)
  refine HasDerivAt.congr_deriv (f := dom) (((m 10 (by norm_num)).sub (m 11 (by norm_num))).const_mul eps) ?_
  rw [dom1]
  ring

theorem dom1_deriv (x : ℝ) (hx : 0 < x) : HasDerivAt dom1 (dom2 x) x := by
  have m : ∀ a : ℝ, 0 < a → HasDerivAt (fun y : ℝ => 1 / (y + a)^2) ((0 * (x + a)^2 - 1 * (((2:ℕ):ℝ) * (x + a)^(2-1) * 1)) / ((x + a)^2)^2) x :=
    fun a ha => (hasDerivAt_const x (1:ℝ)).div (((hasDerivAt_id x).add_const a).pow 2) (by positivity)
  refine HasDerivAt.congr_deriv (f := dom1) ((((m 10 (by norm_num)).neg).add (m 11 (by norm_num))).const_mul eps) ?_
  rw [dom2]
  have h1 : x + 10 ≠ 0 := by positivity
  have h2 : x + 11 ≠ 0 := by positivity
  field_simp
  ring

theorem dom_lim : Tendsto dom atTop (𝓝 0) := by
  have := ((lim_frac 1 10).sub (lim_frac 1 11)).const_mul eps
  rw [sub_zero, mul_zero] at this
  exact this

/-- 2x + 13 and so on. -/
def cA : List ℤ := [13, 2]
/-- 2x + 11. -/
def cB : List ℤ := [11, 2]
/-- x + 7. -/
def cC : List ℤ := [7, 1]
/-- x + 10. -/
def cU : List ℤ := [10, 1]
/-- x + 11. -/
def cV : List ℤ := [11, 1]
/-- Square. -/
def sq (p : List ℤ) : List ℤ := pmul p p
/-- Cube. -/
def cb (p : List ℤ) : List ℤ := pmul p (pmul p p)

/-- The numerator of the dominating second derivative. -/
def certA : List ℤ := psmul 232 (pmul (padd (cb cV) (psmul (-1) (cb cU))) (pmul (pmul (sq cA) (sq cB)) (pmul (pmul (sq (pshift PZ)) (sq PZ)) (sq cC))))

/-- The numerator of the second derivative of the change. -/
def certB : List ℤ := psmul (10^10) (pmul (pmul (cb cU) (cb cV))
  (padd (padd (pmul (padd (pmul (padd (psmul 2 cA) [20]) (sq cB)) (psmul (-1) (pmul (padd (psmul 2 cB) [20]) (sq cA)))) (pmul (pmul (sq (pshift PZ)) (sq PZ)) (sq cC)))
    (pmul (padd (pmul (padd (pmul (pder (pder (pshift PZ))) (pshift PZ)) (psmul (-1) (pmul (pder (pshift PZ)) (pder (pshift PZ))))) (sq PZ))
      (psmul (-1) (pmul (padd (pmul (pder (pder PZ)) PZ) (psmul (-1) (pmul (pder PZ) (pder PZ)))) (sq (pshift PZ))))) (pmul (pmul (sq cA) (sq cB)) (sq cC))))
    (pmul (pmul (sq cA) (sq cB)) (pmul (sq (pshift PZ)) (sq PZ)))))

theorem cert_pos : (∀ a ∈ padd certA certB, 0 ≤ a) ∧ ∀ a ∈ padd certA (psmul (-1) certB), 0 ≤ a := by decide +kernel

theorem dominated (x : ℝ) (hx : 0 < x) : 0 ≤ dom2 x + dlt2 x ∧ 0 ≤ dom2 x - dlt2 x := by
  have p0 := PZ_pos x hx.le
  have p1 := P1_pos x hx.le
  have h1 := ev_nonneg x hx.le _ cert_pos.1
  have h2 := ev_nonneg x hx.le _ cert_pos.2
  have evA : ev cA x = 2 * (x + 6.5) := by norm_num [ev, cA]; ring
  have evB : ev cB x = 2 * (x + 5.5) := by norm_num [ev, cB]; ring
  have evC : ev cC x = x + 7 := by norm_num [ev, cC]; ring
  have evU : ev cU x = x + 10 := by norm_num [ev, cU]; ring
  have evV : ev cV x = x + 11 := by norm_num [ev, cV]; ring
  have ev20 : ev [20] x = 20 := by norm_num [ev]
  have eA : ev certA x = 10^10 * (16 * (x + 6.5)^2 * (x + 5.5)^2 * (ev (pshift PZ) x)^2 * (ev PZ x)^2 * (x + 7)^2 * ((x + 10)^3 * (x + 11)^3)) * dom2 x := by
    simp only [certA, sq, cb, ev_psmul, ev_pmul, ev_padd, evA, evB, evC, evU, evV]
    have a1 : x + 10 ≠ 0 := by positivity
    have a2 : x + 11 ≠ 0 := by positivity
    rw [dom2, eps]
    push_cast
    field_simp
    ring
  have eB : ev certB x = 10^10 * (16 * (x + 6.5)^2 * (x + 5.5)^2 * (ev (pshift PZ) x)^2 * (ev PZ x)^2 * (x + 7)^2 * ((x + 10)^3 * (x + 11)^3)) * dlt2 x := by
    simp only [certB, sq, cb, ev_psmul, ev_pmul, ev_padd, evA, evB, evC, evU, evV, ev20]
    have a1 : x + 6.5 ≠ 0 := by positivity
    have a2 : x + 5.5 ≠ 0 := by positivity
    have a3 : x + 7 ≠ 0 := by positivity
    rw [dlt2]
    generalize ev (pder (pder (pshift PZ))) x = b2
    generalize ev (pder (pshift PZ)) x = b1
    generalize ev (pder (pder PZ)) x = c2
    generalize ev (pder PZ) x = c1
    generalize ev (pshift PZ) x = b0 at p1
    generalize ev PZ x = c0 at p0
    generalize hA : x + 6.5 = A at a1
    generalize hB : x + 5.5 = B at a2
    generalize x + 7 = C at a3
    push_cast
    field_simp
    ring
  rw [ev_padd, eA, eB, ← mul_add] at h1
  rw [ev_padd, ev_psmul, eA, eB] at h2
  have hk : 0 < 10^10 * (16 * (x + 6.5)^2 * (x + 5.5)^2 * (ev (pshift PZ) x)^2 * (ev PZ x)^2 * (x + 7)^2 * ((x + 10)^3 * (x + 11)^3)) := by positivity
  constructor
  · exact nonneg_of_mul_nonneg_right h1 hk
  · refine nonneg_of_mul_nonneg_right (le_of_le_of_eq h2 ?_) hk
    push_cast
    ring

/-- A convex function that tends to zero is not negative. -/
theorem convex_nonneg (h : ℝ → ℝ) (hc : ConvexOn ℝ (Set.Ioi 0) h) (hl : Tendsto h atTop (𝓝 0)) (x : ℝ) (hx : 0 < x) : 0 ≤ h x := by
  by_contra hn
  push Not at hn
  have e1 : ∀ᶠ y in atTop, h x / 2 < h y ∧ x < y := (hl.eventually (lt_mem_nhds (by linarith))).and (eventually_gt_atTop x)
  obtain ⟨y, hy, hxy⟩ := e1.exists
  have e2 : ∀ᶠ z in atTop, h z < -h x / 2 ∧ y < z ∧ 2 * y < z := (hl.eventually (gt_mem_nhds (by linarith))).and ((eventually_gt_atTop y).and (eventually_gt_atTop (2*y)))
  obtain ⟨z, hz, hyz, -⟩ := e2.exists
  have e3 : ∀ᶠ z in atTop, h z < (h y - h x) / (y - x) * (z - x) + h x ∧ y < z := by
    have hs : 0 < (h y - h x) / (y - x) := div_pos (by linarith) (by linarith)
    have : Tendsto (fun z => (h y - h x) / (y - x) * (z - x) + h x) atTop atTop :=
      tendsto_atTop_add_const_right _ _ ((tendsto_atTop_add_const_right _ (-x) tendsto_id).const_mul_atTop hs)
    have h1 := this.eventually (eventually_gt_atTop 1)
    have h2 := hl.eventually (gt_mem_nhds (by norm_num : (0:ℝ) < 1))
    filter_upwards [h1, h2, eventually_gt_atTop y] with z a b c
    exact ⟨by linarith, c⟩
  obtain ⟨w, hw, hyw⟩ := e3.exists
  have := hc.slope_mono_adjacent (x := x) (y := y) (z := w) hx (lt_trans hx (lt_trans hxy hyw)) hxy hyw
  have h4 : (h y - h x) / (y - x) * (w - y) ≤ h w - h y := by
    rwa [le_div_iff₀ (by linarith)] at this
  have h5 : (h y - h x) / (y - x) * (y - x) = h y - h x := div_mul_cancel₀ _ (by linarith)
  have : (h y - h x) / (y - x) * (w - x) = (h y - h x) / (y - x) * (w - y) + (h y - h x) / (y - x) * (y - x) := by ring
  linarith

theorem dlt_bound (x : ℝ) (hx : 0 < x) : |dlt x| ≤ dom x := by
  have hi : interior (Set.Ioi (0:ℝ)) = Set.Ioi 0 := interior_Ioi
  have c1 : ConvexOn ℝ (Set.Ioi 0) (fun x => dom x + dlt x) := by
    refine convexOn_of_hasDerivWithinAt2_nonneg (convex_Ioi 0) (f' := fun x => dom1 x + dlt1 x) (f'' := fun x => dom2 x + dlt2 x) ?_ ?_ ?_ ?_
    · exact fun y hy => ((dom_deriv y hy).add (dlt_deriv y hy)).continuousAt.continuousWithinAt
    · rw [hi]; exact fun y hy => ((dom_deriv y hy).add (dlt_deriv y hy)).hasDerivWithinAt
    · rw [hi]; exact fun y hy => ((dom1_deriv y hy).add (dlt1_deriv y hy)).hasDerivWithinAt
    · rw [hi]; exact fun y hy => (dominated y hy).1
  have c2 : ConvexOn ℝ (Set.Ioi 0) (fun x => dom x - dlt x) := by
    refine convexOn_of_hasDerivWithinAt2_nonneg (convex_Ioi 0) (f' := fun x => dom1 x - dlt1 x) (f'' := fun x => dom2 x - dlt2 x) ?_ ?_ ?_ ?_
    · exact fun y hy => ((dom_deriv y hy).sub (dlt_deriv y hy)).continuousAt.continuousWithinAt
    · rw [hi]; exact fun y hy => ((dom_deriv y hy).sub (dlt_deriv y hy)).hasDerivWithinAt
    · rw [hi]; exact fun y hy => ((dom1_deriv y hy).sub (dlt1_deriv y hy)).hasDerivWithinAt
    · rw [hi]; exact fun y hy => (dominated y hy).2
  have l1 := dom_lim.add dlt_lim
  have l2 := dom_lim.sub dlt_lim
  rw [add_zero] at l1
  rw [sub_zero] at l2
  have h1 := convex_nonneg _ c1 l1 x hx
  have h2 := convex_nonneg _ c2 l2 x hx
  rw [abs_le]
  constructor <;> linarith

/-! ## The error far away -/

/-- The logarithm of the quotient. -/
noncomputable def quo (x : ℝ) : ℝ := zLnGamma x - Real.log (Real.Gamma x)

theorem quo_step (x : ℝ) (hx : 0 < x) : quo (x+1) = quo x + dlt x := by
  rw [quo, quo, (dlt_eq x hx).2, Real.Gamma_add_one hx.ne', Real.log_mul hx.ne' (Real.Gamma_pos_of_pos hx).ne']
  ring

theorem quo_far (x : ℝ) (hx : 0 < x) (n : Nat) : |quo (x + n) - quo x| ≤ eps * (1 / (x + 10) - 1 / (x + n + 10)) := by
  induction n with
  | zero => simp
  | succ n ih =>
    have hxn : 0 < x + n := by positivity
    have h := dlt_bound (x+n) hxn
    rw [dom] at h
    push_cast
    rw [← add_assoc, quo_step (x+n) hxn]
    have e : x + n + 11 = x + n + 1 + 10 := by ring
    rw [e] at h
    have := abs_le.1 ih
    have := abs_le.1 h
    rw [abs_le]
    constructor <;> linarith

theorem lnGamma_add (x : ℝ) (hx : 0 < x) (n : Nat) : Real.log (Real.Gamma (x + n)) = Real.log (Real.Gamma x) + ∑ m ∈ Finset.range n, Real.log (x + m) := by
  induction n with
  | zero => simp
  | succ n ih =>
    have hxn : 0 < x + n := by positivity
    rw [Finset.sum_range_succ, ← add_assoc, ← ih]
    push_cast
    rw [← add_assoc, Real.Gamma_add_one hxn.ne', Real.log_mul hxn.ne' (Real.Gamma_pos_of_pos hxn).ne']
    ring

theorem lim_nat {f : ℝ → ℝ} {l : ℝ} (h : Tendsto f atTop (𝓝 l)) : Tendsto (fun n : Nat => f n) atTop (𝓝 l) := h.comp tendsto_natCast_atTop_atTop

/-- Far away the quotient tends to a constant. -/
theorem quo_lim (x : ℝ) (hx : 0 < x) : Tendsto (fun n : Nat => quo (x + (n + 1 : Nat))) atTop (𝓝 (Real.log 2.5066282746310005 + Real.log 1.000000000190015 - Real.log (Real.sqrt (2 * Real.pi)))) := by
  have g := Real.BohrMollerup.tendsto_log_gamma hx
  have st := Stirling.tendsto_stirlingSeq_sqrt_pi.log (Real.sqrt_pos.2 Real.pi_pos).ne'
  have s1 : Tendsto (fun n : Nat => Real.log (sL (x + (n + 1 : Nat)))) atTop (𝓝 (Real.log 1.000000000190015)) := by
    refine Tendsto.log (sL_lim.comp ?_) (by norm_num)
    refine tendsto_atTop_add_const_left _ _ ?_
    exact tendsto_natCast_atTop_atTop.comp (tendsto_add_atTop_nat 1)
  have h1 := lim_nat (Real.tendsto_mul_log_one_add_div_atTop (x + 6.5))
  have h2 := (lim_nat (lim_log (x + 6.5))).const_mul (x + 1.5)
  have h3 := lim_nat (lim_log (x + 1))
  have h := (((((h1.add h2).sub h3).add s1).sub st).add g)
  have h' := h.add_const (Real.log 2.5066282746310005 - Real.log (Real.Gamma x) - (x + 6.5) - Real.log (Real.sqrt 2))
  have e : x + 6.5 + (x + 1.5) * 0 - 0 + Real.log 1.000000000190015 - Real.log (Real.sqrt Real.pi) + Real.log (Real.Gamma x) +
      (Real.log 2.5066282746310005 - Real.log (Real.Gamma x) - (x + 6.5) - Real.log (Real.sqrt 2)) = Real.log 2.5066282746310005 + Real.log 1.000000000190015 - Real.log (Real.sqrt (2 * Real.pi)) := by
    rw [Real.sqrt_mul (by norm_num), Real.log_mul (by positivity) (Real.sqrt_pos.2 Real.pi_pos).ne']
    ring
  rw [e] at h'
  refine h'.congr' ?_
  filter_upwards [eventually_gt_atTop 0] with n hn
  have hn0 : (0:ℝ) < n := by exact_mod_cast hn
  have hxn : 0 < x + (n + 1 : Nat) := by positivity
  rw [quo, zLnGamma_exp _ hxn, lnGamma_add x hx, gammaBias, Real.BohrMollerup.logGammaSeq, Stirling.stirlingSeq, Real.log_div (by positivity) (by positivity),
    Real.log_mul (by positivity) (by positivity), Real.log_pow, Real.log_div hn0.ne' (Real.exp_pos 1).ne', Real.log_exp, Real.sqrt_mul (by norm_num), Real.log_mul (by positivity) (by positivity),
    Real.log_sqrt (x := (n:ℝ)) hn0.le]
  have e1 : x + ((n + 1 : Nat) : ℝ) + 5.5 = n + (x + 6.5) := by push_cast; norm_num; ring
  have e2 : x + ((n + 1 : Nat) : ℝ) = n + (x + 1) := by push_cast; ring
  have e3 : x + ((n + 1 : Nat) : ℝ) + 0.5 = n + (x + 1.5) := by push_cast; norm_num; ring
  rw [e1, e3, log_add n (x+6.5) hn0 (by positivity)]
  rw [show Real.log (x + ((n + 1 : Nat) : ℝ)) = Real.log n + Real.log (1 + (x+1)/n) by rw [e2, log_add n (x+1) hn0 (by positivity)]]
  push_cast
  norm_num
  ring

theorem const_small : |Real.log 2.5066282746310005 + Real.log 1.000000000190015 - Real.log (Real.sqrt (2 * Real.pi))| ≤ 2 / 10^10 := by
  have hp : 0 < Real.sqrt (2 * Real.pi) := Real.sqrt_pos.2 (by have := Real.pi_pos; positivity)
  have l1 : 2.50662827463100 ≤ Real.sqrt (2 * Real.pi) := Real.le_sqrt_of_sq_le (by have := Real.pi_gt_d20; norm_num at this ⊢; linarith)
  have l2 : Real.sqrt (2 * Real.pi) ≤ 2.50662827463101 := by
    rw [Real.sqrt_le_left (by norm_num)]
    have := Real.pi_lt_d20
    norm_num at this ⊢
    linarith
  rw [← Real.log_mul (by norm_num) (by norm_num), ← Real.log_div (by norm_num) hp.ne', abs_le]
  constructor
  · have h1 : (1:ℝ) ≤ 2.5066282746310005 * 1.000000000190015 / Real.sqrt (2 * Real.pi) := by
      rw [le_div_iff₀ hp, one_mul]
      refine l2.trans ?_
      norm_num
    have := Real.log_nonneg h1
    linarith
  · refine (Real.log_le_sub_one_of_pos (by positivity)).trans ?_
    rw [sub_le_iff_le_add, div_le_iff₀ hp]
    nlinarith

/-- C123, `zLnGamma`: the logarithm of the gamma function up to 1.4 10^-9, for every positive argument. -/
theorem zLnGamma_error (x : ℝ) (hx : 0 < x) : |zLnGamma x - Real.log (Real.Gamma x)| ≤ 14 / 10^10 := by
  have h1 := quo_lim x hx
  have h2 : ∀ n : Nat, |quo (x + (n + 1 : Nat)) - quo x| ≤ eps / 10 := by
    intro n
    refine (quo_far x hx (n+1)).trans ?_
    have : (0:ℝ) ≤ 1 / (x + (n + 1 : Nat) + 10) := by positivity
    have h3 : 1 / (x + 10) ≤ 1 / 10 := one_div_le_one_div_of_le (by norm_num) (by linarith)
    rw [eps]
    linarith
  have h3 := le_of_tendsto (h1.sub_const (quo x)).abs (Eventually.of_forall h2)
  have h4 := const_small
  change |quo x| ≤ _
  have e : eps / 10 + 2/10^10 ≤ 14/10^10 := by rw [eps]; norm_num
  have a := abs_le.1 h3
  have b := abs_le.1 h4
  rw [abs_le]
  constructor <;> linarith

theorem exp_close (a b : ℝ) (e : ℝ) (he : e ≤ 1) (h : |a - b| ≤ e) : |Real.exp a - Real.exp b| ≤ 2 * e * Real.exp b := by
  have h1 := Real.abs_exp_sub_one_le (x := a - b) (h.trans he)
  rw [Real.exp_sub, div_sub_one (Real.exp_pos b).ne', abs_div, abs_of_pos (Real.exp_pos b), div_le_iff₀ (Real.exp_pos b)] at h1
  refine h1.trans (mul_le_mul_of_nonneg_right ?_ (Real.exp_pos b).le)
  linarith

/-- C123, `zGamma`: the gamma function up to a relative error of 3 10^-9, for every positive argument. -/
theorem zGamma_error (x : ℝ) (hx : 0 < x) : |zGamma x - Real.Gamma x| ≤ 3 / 10^9 * Real.Gamma x := by
  have hg := Real.Gamma_pos_of_pos hx
  have h := exp_close _ _ _ (by norm_num) (zLnGamma_error x hx)
  rw [(zLnGamma_eq x hx).1, Real.exp_log (zLnGamma_eq x hx).2, Real.exp_log hg] at h
  refine h.trans (mul_le_mul_of_nonneg_right (by norm_num) hg.le)

/-- C123, `zBeta`: the beta function up to a relative error of 10^-8, for all positive arguments. -/
theorem zBeta_error (z w : ℝ) (hz : 0 < z) (hw : 0 < w) :
    |zBeta z w - Real.Gamma z * Real.Gamma w / Real.Gamma (z+w)| ≤ 1 / 10^8 * (Real.Gamma z * Real.Gamma w / Real.Gamma (z+w)) := by
  have gz := Real.Gamma_pos_of_pos hz
  have gw := Real.Gamma_pos_of_pos hw
  have gs := Real.Gamma_pos_of_pos (add_pos hz hw)
  have h1 := abs_le.1 (zLnGamma_error z hz)
  have h2 := abs_le.1 (zLnGamma_error w hw)
  have h3 := abs_le.1 (zLnGamma_error (z+w) (add_pos hz hw))
  have h : |(zLnGamma z + zLnGamma w - zLnGamma (z+w)) - (Real.log (Real.Gamma z) + Real.log (Real.Gamma w) - Real.log (Real.Gamma (z+w)))| ≤ 42/10^10 := by
    rw [abs_le]
    constructor <;> linarith
  have h4 := exp_close _ _ _ (by norm_num) h
  rw [Real.exp_sub (Real.log (Real.Gamma z) + Real.log (Real.Gamma w)), Real.exp_add (Real.log (Real.Gamma z)), Real.exp_log gz, Real.exp_log gw, Real.exp_log gs] at h4
  rw [zBeta]
  refine h4.trans (mul_le_mul_of_nonneg_right (by norm_num) (by positivity))

/-- The bounds say something: the factorial of 4 is 24, and the gamma function of 1/2 the square root of pi. -/
example : |zGamma 5 - 24| ≤ 1 / 10^7 ∧ |zGamma (1/2) - Real.sqrt Real.pi| ≤ 1 / 10^8 := by
  constructor
  · have h := zGamma_error 5 (by norm_num)
    have e : Real.Gamma 5 = 24 := by
      have := Real.Gamma_nat_eq_factorial 4
      rw [show ((4:ℕ):ℝ) + 1 = 5 by norm_num] at this
      rw [this]
      norm_num [Nat.factorial]
    rw [e] at h
    exact h.trans (by norm_num)
  · have h := zGamma_error (1/2) (by norm_num)
    rw [Real.Gamma_one_half_eq] at h
    refine h.trans ?_
    have : Real.sqrt Real.pi ≤ 2 := by
      rw [Real.sqrt_le_left (by norm_num)]
      linarith [Real.pi_le_four]
    linarith

end Zm.SF
