import Verif.Model.PexEq
import Verif.Props.Pex
import Verif.Props.Complex
import Mathlib.LinearAlgebra.Lagrange
import Mathlib.Analysis.Complex.Polynomial.Basic
import Mathlib.Analysis.SpecialFunctions.Pow.Real
import Mathlib.Analysis.Normed.Ring.Lemmas
import Mathlib.Analysis.SpecialFunctions.Exp

/-! # C128–C129: polynomial equations

The specification is Mathlib's `Polynomial` with its division `%ₘ` by monic polynomials and derivatives `deriv`. -/

set_option linter.unusedSectionVars false

namespace Zm.PexEq
open Zm Pex Cplx Finset Polynomial

noncomputable section

/-! ## Bairstow and Hitchcock -/

/-- Specification: the quadratic factor `x² + p x + q`. -/
def quad (p q : ℝ) : ℝ[X] := X ^ 2 + C p * X + C q

/-- Specification: coefficients of the remainder `rem1 x + rem0` of the division by the quadratic factor. -/
def rem1 (A : ℝ[X]) (p q : ℝ) : ℝ := (A %ₘ quad p q).coeff 1
def rem0 (A : ℝ[X]) (p q : ℝ) : ℝ := (A %ₘ quad p q).coeff 0

/-- Specification: `(dp, dq)` is Newton's correction of `(p, q)` for the equations `rem1 = rem0 = 0`. -/
def IsNewton (A : ℝ[X]) (p q dp dq : ℝ) : Prop :=
  rem1 A p q + deriv (fun p => rem1 A p q) p * dp + deriv (fun q => rem1 A p q) q * dq = 0 ∧
  rem0 A p q + deriv (fun p => rem0 A p q) p * dp + deriv (fun q => rem0 A p q) q * dq = 0

/-- The coefficients of the quotient, from the highest one. -/
def bet (a : Nat → ℝ) (n : Nat) (p q : ℝ) : Nat → ℝ
  | 0 => a n
  | 1 => a (n-1) - p * a n
  | k+2 => a (n-(k+2)) - p * bet a n p q (k+1) - q * bet a n p q k

/-- Their gradients. -/
def gam (a : Nat → ℝ) (n : Nat) (p q : ℝ) : Nat → ℝ
  | 0 => bet a n p q 0
  | 1 => bet a n p q 1 - p * bet a n p q 0
  | k+2 => bet a n p q (k+2) - p * gam a n p q (k+1) - q * gam a n p q k

theorem bhB_eq (a : Nat → ℝ) (n : Nat) (hn : 1 ≤ n) (p q : ℝ) (b : Nat → ℝ) : ∀ k, k ≤ n → bhB a n p q b (n - k) = bet a n p q k := by
  unfold bhB
  have := forUp_inv (lo := 2) (hi := n+1) (fun j b => set1 b (n-j) (a (n-j) - p * b (n-j+1) - q * b (n-j+2)))
    (set1 (set1 b n (a n)) (n-1) (a (n-1) - p * set1 b n (a n) n)) (fun j b => ∀ k, k < j → k ≤ n → b (n-k) = bet a n p q k) (by omega)
    (by
      intro k hk hkn
      interval_cases k
      · rw [Nat.sub_zero, set1_ne _ _ (by omega), set1_same]; rfl
      · rw [set1_same, set1_same]; rfl)
    (by
      intro j t h1 h2 ih k hk hkn
      by_cases hkj : k = j
      · subst hkj
        obtain ⟨l, rfl⟩ : ∃ l, k = l + 2 := ⟨k - 2, by omega⟩
        rw [set1_same, show n - (l+2) + 1 = n - (l+1) by omega, show n - (l+2) + 2 = n - l by omega, ih _ (by omega) (by omega),
          ih _ (by omega) (by omega)]
        rfl
      · rw [set1_ne _ _ (by omega)]; exact ih k (by omega) hkn)
  intro k hk
  exact this k (by omega) hk

theorem bhC_eq (a : Nat → ℝ) (n : Nat) (hn : 3 ≤ n) (p q : ℝ) (b c : Nat → ℝ) (hb : ∀ k, k ≤ n → b (n - k) = bet a n p q k) :
    ∀ k, k < n → bhC b n p q c (n - 1 - k) = gam a n p q k := by
  unfold bhC
  have := forDown_inv (lo := 0) (hi := n-2) (fun j c => set1 c j (b (j+1) - p * c (j+1) - q * c (j+2)))
    (set1 (set1 c (n-1) (b n)) (n-2) (b (n-1) - p * set1 c (n-1) (b n) (n-1))) (fun j c => ∀ k, k < n → j ≤ n-1-k → c (n-1-k) = gam a n p q k)
    (by omega)
    (by
      intro k hk hkn
      have : k = 0 ∨ k = 1 := by omega
      have h0 := hb 0 (by omega)
      have h1 := hb 1 (by omega)
      rw [Nat.sub_zero] at h0
      rcases this with rfl | rfl
      · rw [Nat.sub_zero, set1_ne _ _ (by omega), set1_same, h0]; rfl
      · rw [show n - 1 - 1 = n - 2 by omega, set1_same, set1_same, h0, h1]; rfl)
    (by
      intro j t h1 h2 ih k hk hkn
      by_cases hkj : n - 1 - k = j
      · subst hkj
        obtain ⟨l, rfl⟩ : ∃ l, k = l + 2 := ⟨k - 2, by omega⟩
        have e := hb (l+2) (by omega)
        rw [set1_same, show n - 1 - (l+2) + 1 = n - (l+2) by omega, e, show n - (l+2) = n - 1 - (l+1) by omega, ih (l+1) (by omega) (by omega),
          show n - 1 - (l+2) + 2 = n - 1 - l by omega, ih l (by omega) (by omega)]
        rfl
      · rw [set1_ne _ _ hkj]; exact ih k hk (by omega))
  intro k hk
  exact this k hk (by omega)

theorem quad_monic (p q : ℝ) : (quad p q).Monic := by unfold quad; monicity!

theorem quad_degree (p q : ℝ) : (quad p q).degree = 2 := by unfold quad; compute_degree!

/-- A quotient and the remainder from coefficients that satisfy the recursion. -/
theorem division (a b : Nat → ℝ) (n : Nat) (hn : 2 ≤ n) (p q : ℝ) (hb : ∀ k, k ≤ n → b (n - k) = bet a n p q k) :
    poly (n+1) a = quad p q * poly (n-1) (fun j => b (j+2)) + (C (b 1) * X + C (b 0 + p * b 1)) := by
  have key : ∀ j, j ≤ n → a j = b j + (if j + 1 ≤ n then p * b (j+1) else 0) + (if j + 2 ≤ n then q * b (j+2) else 0) := by
    intro j hj
    have e := hb (n - j) (by omega)
    rw [Nat.sub_sub_self hj] at e
    obtain ⟨k, hk⟩ : ∃ k, n - j = k := ⟨_, rfl⟩
    rcases k with _ | _ | k
    · rw [if_neg (by omega), if_neg (by omega), e, hk]
      have : j = n := by omega
      subst this
      simp [bet]
    · have h0 := hb 0 (by omega)
      rw [Nat.sub_zero] at h0
      rw [if_pos (by omega), if_neg (by omega), e, hk, show j + 1 = n by omega, h0]
      have : j = n - 1 := by omega
      subst this
      simp [bet]
    · have h0 := hb k (by omega)
      have h1 := hb (k+1) (by omega)
      rw [if_pos (by omega), if_pos (by omega), e, hk, show j + 1 = n - (k+1) by omega, h1, show j + 2 = n - k by omega, h0]
      have : j = n - (k+2) := by omega
      subst this
      simp only [bet]; ring
  ext j
  unfold quad
  rw [add_mul, add_mul, coeff_add, coeff_add, coeff_add, coeff_C_mul, mul_assoc, coeff_C_mul, coeff_add, coeff_C_mul, poly_coeff]
  rcases j with _ | _ | j
  · have h := key 0 (by omega)
    rw [if_pos (by omega), if_pos (by omega)] at h
    rw [if_pos (by omega), h, coeff_zero_eq_eval_zero (X ^ 2 * _), coeff_zero_eq_eval_zero (X * _), poly_coeff, if_pos (by omega)]
    simp
    ring
  · have h := key 1 (by omega)
    rw [if_pos (by omega)] at h
    have e2 : (X ^ 2 * poly (n-1) (fun j => b (j+2))).coeff (0+1) = 0 := by rw [pow_two, mul_assoc, coeff_X_mul, coeff_zero_eq_eval_zero]; simp
    have e3 : (C (b 0 + p * b 1) : ℝ[X]).coeff (0+1) = 0 := by rw [coeff_C]; simp
    have e4 : (X : ℝ[X]).coeff (0+1) = 1 := by rw [coeff_X]; simp
    rw [if_pos (by omega), h, e2, e3, e4, coeff_X_mul, poly_coeff, poly_coeff]
    norm_num only
    split_ifs <;> first | (exfalso; omega) | ring
  · have e0 : (X : ℝ[X]).coeff (j+1+1) = 0 := by rw [coeff_X]; simp
    have e1 : (C (b 0 + p * b 1) : ℝ[X]).coeff (j+1+1) = 0 := by rw [coeff_C]; simp
    rw [e0, e1, coeff_X_mul, show j + 1 + 1 = j + 2 by rfl, coeff_X_pow_mul, poly_coeff, poly_coeff, poly_coeff]
    by_cases hj : j + 2 < n + 1
    · rw [if_pos hj, key (j+2) (by omega)]
      split_ifs <;> first | (exfalso; omega) | (ring_nf)
    · rw [if_neg hj, if_neg (by omega), if_neg (by omega), if_neg (by omega)]; ring

theorem rem_of_division {A Q : ℝ[X]} {p q r1 r0 : ℝ} (h : A = quad p q * Q + (C r1 * X + C r0)) :
    A %ₘ quad p q = C r1 * X + C r0 ∧ A /ₘ quad p q = Q := by
  have := div_modByMonic_unique Q (C r1 * X + C r0) (f := A) (quad_monic p q) ⟨by rw [h]; ring, by
    rw [quad_degree]; exact lt_of_le_of_lt (by compute_degree : _ ≤ (1 : WithBot ℕ)) (by decide)⟩
  exact ⟨this.2, this.1⟩

theorem rem_eq (a : Nat → ℝ) (n : Nat) (hn : 2 ≤ n) (p q : ℝ) :
    rem1 (poly (n+1) a) p q = bet a n p q (n-1) ∧ rem0 (poly (n+1) a) p q = bet a n p q n + p * bet a n p q (n-1) := by
  have h := rem_of_division (division a (fun j => bet a n p q (n-j)) n hn p q (fun k hk => by beta_reduce; rw [Nat.sub_sub_self hk]))
  unfold rem1 rem0
  rw [h.1]
  constructor
  · simp [coeff_C]
  · simp

theorem bet_deriv_p (a : Nat → ℝ) (n : Nat) (p q : ℝ) : ∀ k, HasDerivAt (fun p => bet a n p q (k+1)) (-gam a n p q k) p := by
  intro k
  induction k using Nat.strong_induction_on with
  | _ k ih =>
    rcases k with _ | _ | k
    · have := ((hasDerivAt_id p).mul_const (a n)).const_sub (a (n-1))
      exact this.congr_deriv (by simp [gam, bet])
    · have h0 := ih 0 (by omega)
      have h1 : HasDerivAt (fun p => bet a n p q 0) 0 p := hasDerivAt_const p (a n)
      have := (((hasDerivAt_id p).mul h0).const_sub (a (n-2))).sub (h1.const_mul q)
      exact this.congr_deriv (by simp [gam]; ring)
    · have h0 := ih k (by omega)
      have h1 := ih (k+1) (by omega)
      have := (((hasDerivAt_id p).mul h1).const_sub (a (n-(k+3)))).sub (h0.const_mul q)
      exact this.congr_deriv (by simp [gam]; ring)

theorem bet_deriv_q (a : Nat → ℝ) (n : Nat) (p q : ℝ) : ∀ k, HasDerivAt (fun q => bet a n p q (k+2)) (-gam a n p q k) q := by
  intro k
  induction k using Nat.strong_induction_on with
  | _ k ih =>
    rcases k with _ | _ | k
    · have h1 : HasDerivAt (fun q => bet a n p q 0) 0 q := hasDerivAt_const q (a n)
      have h2 : HasDerivAt (fun q => bet a n p q 1) 0 q := hasDerivAt_const q _
      have := ((h2.const_mul p).const_sub (a (n-2))).sub ((hasDerivAt_id q).mul h1)
      exact this.congr_deriv (by simp [gam])
    · have h1 := ih 0 (by omega)
      have h2 : HasDerivAt (fun q => bet a n p q 1) 0 q := hasDerivAt_const q _
      have := ((h1.const_mul p).const_sub (a (n-3))).sub ((hasDerivAt_id q).mul h2)
      exact this.congr_deriv (by simp [gam])
    · have h0 := ih k (by omega)
      have h1 := ih (k+1) (by omega)
      have := ((h1.const_mul p).const_sub (a (n-(k+4)))).sub ((hasDerivAt_id q).mul h0)
      exact this.congr_deriv (by simp [gam]; ring)

/-- C128: the correction is Newton's one for the remainder of the division by the quadratic factor. -/
theorem bhDelta_newton (a : Nat → ℝ) (n : Nat) (hn : 3 ≤ n) (p q : ℝ) (b0 c0 : Nat → ℝ) (dp dq : ℝ)
    (h : bhDelta (bhB a n p q b0) (bhC (bhB a n p q b0) n p q c0) = .ok (dp, dq)) : IsNewton (poly (n+1) a) p q dp dq := by
  have hb := bhB_eq a n (by omega) p q b0
  have hc := bhC_eq a n hn p q _ c0 hb
  set b := bhB a n p q b0
  set c := bhC b n p q c0
  have b1 : b 1 = bet a n p q (n-1) := by rw [← hb (n-1) (by omega)]; congr 1; omega
  have b0' : b 0 = bet a n p q n := by rw [← hb n (by omega)]; congr 1; omega
  have e0 : c 0 = gam a n p q (n-1) := by rw [← hc (n-1) (by omega)]; congr 1; omega
  have e1 : c 1 = gam a n p q (n-2) := by rw [← hc (n-2) (by omega)]; congr 1; omega
  have e2 : c 2 = gam a n p q (n-3) := by rw [← hc (n-3) (by omega)]; congr 1; omega
  have d1p : HasDerivAt (fun p => bet a n p q (n-1)) (-c 1) p := by
    have := bet_deriv_p a n p q (n-2); rw [← e1, show n - 2 + 1 = n - 1 by omega] at this; exact this
  have d0p : HasDerivAt (fun p => bet a n p q n) (-c 0) p := by
    have := bet_deriv_p a n p q (n-1); rw [← e0, show n - 1 + 1 = n by omega] at this; exact this
  have d1q : HasDerivAt (fun q => bet a n p q (n-1)) (-c 2) q := by
    have := bet_deriv_q a n p q (n-3); rw [← e2, show n - 3 + 2 = n - 1 by omega] at this; exact this
  have d0q : HasDerivAt (fun q => bet a n p q n) (-c 1) q := by
    have := bet_deriv_q a n p q (n-2); rw [← e1, show n - 2 + 2 = n by omega] at this; exact this
  have r1 : ∀ p q, rem1 (poly (n+1) a) p q = bet a n p q (n-1) := fun p q => (rem_eq a n (by omega) p q).1
  have r0 : ∀ p q, rem0 (poly (n+1) a) p q = bet a n p q n + p * bet a n p q (n-1) := fun p q => (rem_eq a n (by omega) p q).2
  unfold IsNewton
  simp only [r1, r0]
  have f1 := (d0p.add ((hasDerivAt_id p).mul d1p)).deriv
  have f2 := (d0q.add (d1q.const_mul p)).deriv
  simp only [Pi.add_def, Pi.mul_def, id] at f1
  simp only [Pi.add_def] at f2
  rw [d1p.deriv, d1q.deriv, f1, f2, ← b1, ← b0']
  unfold bhDelta at h
  by_cases hd : c 1 * c 1 + (b 1 - c 0) * c 2 = 0
  · rw [if_pos hd] at h; exact absurd h (by simp)
  · rw [if_neg hd] at h
    simp only [Res.ok.injEq, Prod.mk.injEq] at h
    obtain ⟨rfl, rfl⟩ := h
    have hDD : (c 1 * c 1 + (b 1 - c 0) * c 2) * (1 / (c 1 * c 1 + (b 1 - c 0) * c 2)) = 1 := mul_one_div_cancel hd
    constructor
    · linear_combination (-b 1) * hDD
    · linear_combination (-(b 0 + p * b 1)) * hDD

/-- Specification of an answer by deflation: constants have no roots, linear and quadratic polynomials their exact ones; a polynomial of a higher
degree is divided by a quadratic factor with the exact roots `z1`, `z2`, for which Newton's correction is within the tolerance, and its quotient is
solved in turn. -/
inductive Deflated (tol : ℝ) : ℝ[X] → List ℂ → Prop
  | const (c : ℝ) : Deflated tol (C c) []
  | lin (a1 r : ℝ) : Deflated tol (C a1 * (X - C r)) [(r : ℂ)]
  | quadr (A : ℝ[X]) (a2 : ℝ) (z1 z2 : ℂ) (h : A.map (algebraMap ℝ ℂ) = C (a2 : ℂ) * ((X - C z1) * (X - C z2))) : Deflated tol A [z1, z2]
  | deflate (A : ℝ[X]) (p q dp dq : ℝ) (z1 z2 : ℂ) (l : List ℂ) (hnew : IsNewton A p q dp dq) (hp : |dp| ≤ tol) (hq : |dq| ≤ tol)
      (hz : (quad p q).map (algebraMap ℝ ℂ) = (X - C z1) * (X - C z2)) (hl : Deflated tol (A /ₘ quad p q) l) : Deflated tol A (l ++ [z1, z2])

/-- Where all corrections vanish, the answers are the roots with their multiplicities. -/
theorem Deflated.exact {A : ℝ[X]} {l : List ℂ} (h : Deflated 0 A l) :
    ∃ c : ℝ, A.map (algebraMap ℝ ℂ) = C (c : ℂ) * (l.map fun z => X - C z).prod := by
  induction h with
  | const c => exact ⟨c, by simp⟩
  | lin a1 r => exact ⟨a1, by simp⟩
  | quadr A a2 z1 z2 h => exact ⟨a2, by simpa using h⟩
  | deflate A p q dp dq z1 z2 l hnew hp hq hz hl ih =>
    obtain ⟨c, hc⟩ := ih
    refine ⟨c, ?_⟩
    have h0 : dp = 0 := abs_nonpos_iff.1 hp
    have h1 : dq = 0 := abs_nonpos_iff.1 hq
    subst h0 h1
    obtain ⟨e1, e0⟩ := hnew
    simp only [mul_zero, add_zero] at e1 e0
    have hR : A %ₘ quad p q = 0 := by
      ext k
      rcases k with _ | _ | k
      · exact e0
      · exact e1
      · rw [coeff_zero]
        refine coeff_eq_zero_of_degree_lt (lt_of_lt_of_le (degree_modByMonic_lt A (quad_monic p q)) ?_)
        rw [quad_degree]; exact_mod_cast (by omega : 2 ≤ k + 1 + 1)
    have hA := modByMonic_add_div A (quad p q)
    rw [hR, zero_add] at hA
    rw [← hA, Polynomial.map_mul, hc, hz, List.map_append, List.prod_append]
    simp; ring

theorem bhLoop_spec (a : Nat → ℝ) (n : Nat) (hn : 3 ≤ n) (tol : ℝ) : ∀ (k : Nat) (p q : ℝ) (b c : Nat → ℝ) (p' q' : ℝ) (b' : Nat → ℝ),
    bhLoop a n tol k p q b c = .ok (p', q', b', false) →
    (∀ k, k ≤ n → b' (n - k) = bet a n p' q' k) ∧ ∃ dp dq, IsNewton (poly (n+1) a) p' q' dp dq ∧ |dp| ≤ tol ∧ |dq| ≤ tol := by
  intro k
  induction k with
  | zero => intro p q b c p' q' b' h; simp [bhLoop] at h
  | succ k ih =>
    intro p q b c p' q' b' h
    unfold bhLoop at h
    dsimp only at h
    cases hd : bhDelta (bhB a n p q b) (bhC (bhB a n p q b) n p q c) with
    | ub => rw [hd] at h; exact absurd h (by simp [Res.bind])
    | fail => rw [hd] at h; exact absurd h (by simp [Res.bind])
    | ok d =>
      obtain ⟨dp, dq⟩ := d
      rw [hd] at h
      change (if |dp| ≤ tol ∧ |dq| ≤ tol then Res.ok (p, q, bhB a n p q b, false) else _) = _ at h
      by_cases ht : |dp| ≤ tol ∧ |dq| ≤ tol
      · rw [if_pos ht] at h
        simp only [Res.ok.injEq, Prod.mk.injEq, and_true] at h
        obtain ⟨rfl, rfl, rfl⟩ := h
        exact ⟨bhB_eq a n (by omega) p q b, dp, dq, bhDelta_newton a n hn p q b c dp dq hd, ht.1, ht.2⟩
      · rw [if_neg ht] at h
        exact ih _ _ _ _ _ _ _ h

theorem shift_eq (a b : Nat → ℝ) (n : Nat) : ∀ j, j + 2 ≤ n → forUp 2 (n+1) (fun j a => set1 a (j-2) (b j)) a j = b (j+2) := by
  have := forUp_inv (lo := 2) (hi := n+1) (fun j (a : Nat → ℝ) => set1 a (j-2) (b j)) a (fun k t => 2 ≤ k → ∀ j, j + 2 < k → t j = b (j+2))
  intro j hj
  refine this (by omega) (fun _ j hj => by omega) ?_ (by omega) j (by omega)
  intro i t h1 h2 ih _ j hj
  by_cases hji : j = i - 2
  · subst hji; rw [set1_same]; congr 1; omega
  · rw [set1_ne _ _ hji]; exact ih h1 j (by omega)

theorem qe_poly (a b c : ℝ) (z1 z2 : ℂ) (h : zQESolve a b c = .ok (z1, z2)) :
    (C a * X ^ 2 + C b * X + C c : ℝ[X]).map (algebraMap ℝ ℂ) = C (a : ℂ) * ((X - C z1) * (X - C z2)) := by
  have ha : a ≠ 0 := by
    rintro rfl; rw [zQESolve_refused] at h; exact absurd h (by simp)
  have hbc : b ≠ 0 ∨ c ≠ 0 := by
    by_contra hc
    push Not at hc
    rw [hc.1, hc.2, zQESolve_zero_violated a ha] at h; exact absurd h (by simp)
  obtain ⟨r1, r2, e, hx⟩ := zQESolve_spec_partial a b c ha hbc
  rw [h] at e
  simp only [Res.ok.injEq, Prod.mk.injEq] at e
  obtain ⟨rfl, rfl⟩ := e
  refine Polynomial.funext fun x => ?_
  have := hx x
  simp only [Polynomial.map_add, Polynomial.map_mul, Polynomial.map_pow, map_C, map_X, eval_add, eval_mul, eval_C, eval_pow, eval_X, eval_sub]
  simp only [Complex.coe_algebraMap]
  rw [this]; ring

theorem bhdst_spec (tol : ℝ) (iter : Int) : ∀ (n : Nat) (a : Nat → ℝ) (ans ans' : Nat → ℂ), a n ≠ 0 → bhdst tol iter n a ans = .ok (ans', false) →
    Deflated tol (poly (n+1) a) ((List.range n).map ans') ∧ ∀ j, n ≤ j → ans' j = ans j := by
  intro n
  induction n using Nat.strong_induction_on with
  | _ n ih =>
    intro a ans ans' hlead h
    match n, ih with
    | 0, _ =>
      simp only [bhdst, Res.ok.injEq, Prod.mk.injEq, and_true] at h
      subst h
      refine ⟨?_, fun _ _ => rfl⟩
      have : poly (0+1) a = C (a 0) := by simp [poly]
      rw [this]; exact Deflated.const _
    | 1, _ =>
      unfold bhdst at h
      rw [if_neg hlead] at h
      simp only [Res.ok.injEq, Prod.mk.injEq, and_true] at h
      subst h
      refine ⟨?_, fun j hj => set1_ne _ _ (by omega)⟩
      have : poly (1+1) a = C (a 1) * (X - C (-a 0 / a 1)) := by
        rw [poly, sum_range_succ, sum_range_one, mul_sub, ← C_mul, mul_div_cancel₀ _ hlead]; simp; ring
      rw [this]
      have e : ((List.range 1).map (set1 ans 0 ⟨-a 0 / a 1, 0⟩)) = [((-a 0 / a 1 : ℝ) : ℂ)] := by
        simp only [List.range_succ, List.range_zero, List.nil_append, List.map_cons, List.map_nil, set1_same]; rfl
      rw [e]; exact Deflated.lin _ _
    | 2, _ =>
      unfold bhdst at h
      cases hq : zQESolve (a 2) (a 1) (a 0) with
      | ub => rw [hq] at h; exact absurd h (by simp [putQE, Res.bind])
      | fail => exfalso; unfold zQESolve at hq; rw [if_neg hlead] at hq; dsimp only at hq; split_ifs at hq
      | ok r =>
        obtain ⟨z1, z2⟩ := r
        rw [hq] at h
        simp only [putQE, Res.bind, Res.ok.injEq, Prod.mk.injEq, and_true] at h
        subst h
        refine ⟨?_, fun j hj => by rw [set1_ne _ _ (by omega), set1_ne _ _ (by omega)]⟩
        have e : ((List.range 2).map (set1 (set1 ans 0 z1) (0+1) z2)) = [z1, z2] := by
          simp [List.range_succ, set1]
        rw [e]
        refine Deflated.quadr _ (a 2) z1 z2 ?_
        rw [← qe_poly _ _ _ _ _ hq]
        congr 1
        rw [poly, sum_range_succ, sum_range_succ, sum_range_one]; simp; ring
    | n+3, ih =>
      unfold bhdst at h
      cases hb : bh (a 1 + 1) (a 0 + 1) a (n+3) tol iter with
      | ub => rw [hb] at h; exact absurd h (by simp [Res.bind])
      | fail => rw [hb] at h; exact absurd h (by simp [Res.bind])
      | ok r =>
        obtain ⟨p, q, a', w⟩ := r
        rw [hb] at h
        simp only [Res.bind] at h
        cases hq : zQESolve 1 p q with
        | ub => rw [hq] at h; exact absurd h (by simp [putQE])
        | fail => exfalso; unfold zQESolve at hq; rw [if_neg one_ne_zero] at hq; dsimp only at hq; split_ifs at hq
        | ok r =>
          obtain ⟨z1, z2⟩ := r
          rw [hq] at h
          simp only [putQE] at h
          cases hr : bhdst tol iter (n+1) a' (set1 (set1 ans (n+1) z1) (n+1+1) z2) with
          | ub => rw [hr] at h; exact absurd h (by simp)
          | fail => rw [hr] at h; exact absurd h (by simp)
          | ok r =>
            obtain ⟨ans2, w2⟩ := r
            rw [hr] at h
            simp only [Res.ok.injEq, Prod.mk.injEq, Bool.or_eq_false_iff] at h
            obtain ⟨rfl, rfl, rfl⟩ := h
            unfold bh at hb
            cases hl : bhLoop a (n+3) tol (iterInit iter) (a 1 + 1) (a 0 + 1) (fun _ => 0) (fun _ => 0) with
            | ub => rw [hl] at hb; exact absurd hb (by simp [Res.bind])
            | fail => rw [hl] at hb; exact absurd hb (by simp [Res.bind])
            | ok r =>
              obtain ⟨p2, q2, b, w⟩ := r
              rw [hl] at hb
              simp only [Res.bind, Res.ok.injEq, Prod.mk.injEq] at hb
              obtain ⟨rfl, rfl, rfl, rfl⟩ := hb
              obtain ⟨hbet, dp, dq, hN, hdp, hdq⟩ := bhLoop_spec a (n+3) (by omega) tol _ _ _ _ _ _ _ _ hl
              have hsh := shift_eq a b (n+3)
              have hlead' : forUp 2 (n+3+1) (fun j a => set1 a (j-2) (b j)) a (n+1) ≠ 0 := by
                rw [hsh (n+1) (by omega)]
                have := hbet 0 (by omega)
                rw [Nat.sub_zero] at this
                rw [this]; exact hlead
              obtain ⟨hD, hrest⟩ := ih (n+1) (by omega) _ _ _ hlead' hr
              refine ⟨?_, fun j hj => by rw [hrest j (by omega), set1_ne _ _ (by omega), set1_ne _ _ (by omega)]⟩
              have el : (List.range (n+3)).map ans2 = (List.range (n+1)).map ans2 ++ [z1, z2] := by
                rw [show n + 3 = (n + 1) + 1 + 1 by rfl, List.range_succ, List.range_succ]
                simp only [List.map_append, List.map_cons, List.map_nil, List.append_assoc]
                rw [hrest (n+1) (by omega), hrest (n+1+1) (by omega), set1_same, set1_ne _ _ (by omega), set1_same]
                rfl
              rw [el]
              refine Deflated.deflate _ p2 q2 dp dq z1 z2 _ hN hdp hdq ?_ ?_
              · have := qe_poly _ _ _ _ _ hq
                simpa [quad] using this
              · have hd := division a b (n+3) (by omega) p2 q2 hbet
                rw [(rem_of_division hd).2]
                convert hD using 1
                exact poly_ext fun i hi => (hsh i (by omega)).symm

theorem touchup_eq (size : Nat) (ans : Nat → ℂ) (tol : ℝ) :
    touchup size ans tol = fun j => if j < size then zComplexTouchup (ans j) tol else ans j := by
  unfold touchup
  rw [forUp_set1 (fun i (v : Nat → ℂ) => zComplexTouchup (v i) tol) ans (fun i => zComplexTouchup (ans i) tol)]
  · funext j; simp
  · intro k t h1 h2 _ h3; rw [h3 k (by omega)]

/-- C128: whenever `zPexBH` ends without a warning, its answers are those of an approximate deflation into quadratic factors (touched up by
`zTOL`). -/
theorem zPexBH_partial (tolz : ℝ) (n : Nat) (a : Nat → ℝ) (ha : a n ≠ 0) (size : Nat) (ans ans' : Nat → ℂ) (tol : ℝ) (iter : Int)
    (h : zPexBH tolz n a size ans tol iter = .ok (ans', false)) :
    n ≤ size ∧ ∃ z : Nat → ℂ, Deflated (if tol = 0 then 10 ^ (-7 : ℤ) else tol) (poly (n+1) a) ((List.range n).map z) ∧
      (∀ i, i < n → ans' i = zComplexTouchup (z i) tolz) ∧
      ∀ i, n ≤ i → i < size → ans' i = zComplexTouchup (ans i) tolz := by
  unfold zPexBH at h
  by_cases hs : n > size
  · rw [if_pos hs] at h; exact absurd h (by simp)
  rw [if_neg hs] at h
  cases hb : bhdst (useTol tol) iter n a ans with
  | ub => rw [hb] at h; exact absurd h (by simp [Res.bind])
  | fail => rw [hb] at h; exact absurd h (by simp [Res.bind])
  | ok r =>
    obtain ⟨z, w⟩ := r
    rw [hb] at h
    simp only [Res.bind, Res.ok.injEq, Prod.mk.injEq] at h
    obtain ⟨rfl, rfl⟩ := h
    obtain ⟨hD, hrest⟩ := bhdst_spec _ _ n a ans z ha hb
    refine ⟨by omega, z, ?_, ?_, ?_⟩
    · have : useTol tol = (if tol = 0 then 10 ^ (-7 : ℤ) else tol) := by unfold useTol; congr 1; norm_num
      rw [← this]; exact hD
    · intro i hi; rw [touchup_eq]; dsimp only; rw [if_pos (by omega)]
    · intro i h1 h2; rw [touchup_eq]; dsimp only; rw [if_pos (by omega), hrest i h1]

/-- C128: too few places for the answers are refused. -/
theorem zPexBH_refused (tolz : ℝ) (n : Nat) (a : Nat → ℝ) (size : Nat) (ans : Nat → ℂ) (tol : ℝ) (iter : Int) (h : size < n) :
    zPexBH tolz n a size ans tol iter = .fail ∧ zPexDKA tolz n a size ans tol iter = .fail := by
  unfold zPexBH zPexDKA
  exact ⟨if_pos h, if_pos h⟩

/-- C128 (negation): `x² = 0` is not solved: zero is divided by zero. -/
theorem zPexBH_square_violated (tolz : ℝ) (ans : Nat → ℂ) (tol : ℝ) (iter : Int) :
    zPexBH tolz 2 (fun i => if i = 2 then 1 else 0) 2 ans tol iter = .ub := by
  simp [zPexBH, bhdst, zQESolve, putQE, Res.bind]

/-- C128 (negation): for `x³ + x² - x - 2` the first correction divides by zero. -/
theorem zPexBH_singular_violated (tolz : ℝ) (ans : Nat → ℂ) (tol : ℝ) (iter : Int) :
    zPexBH tolz 3 (fun i => if i = 0 then -2 else if i = 1 then -1 else 1) 3 ans tol iter = .ub := by
  obtain ⟨k, hk⟩ : ∃ k, iterInit iter = k + 1 := ⟨iterInit iter - 1, by unfold iterInit; split_ifs <;> omega⟩
  simp [zPexBH, bhdst, bh, hk, bhLoop, bhDelta, bhB, bhC, forUp, forN, forDown, forDownN, set1, Res.bind]
  norm_num

/-- `x³ + 2 x² - x - 2 = (x - 1) (x + 1) (x + 2)` is solved in one turn. -/
example (ans : Nat → ℂ) : ∃ ans', zPexBH 0 3 (fun i => if i = 0 then -2 else if i = 1 then -1 else if i = 2 then 2 else 1) 3 ans 0 1 =
    .ok (ans', false) := by
  have h4 : Real.sqrt 4 ≠ 0 := by positivity
  simp [zPexBH, bhdst, bh, iterInit, bhLoop, bhDelta, bhB, bhC, forUp, forN, forDown, forDownN, set1, Res.bind, zQESolve, putQE, useTol]
  norm_num [h4, putQE]
  simp [set1]

example : Deflated 0 (poly 2 (fun i => if i = 0 then -6 else 2)) [((3:ℝ) : ℂ)] := by
  have : poly 2 (fun i => if i = 0 then (-6:ℝ) else 2) = C 2 * (X - C 3) := by
    rw [poly, sum_range_succ, sum_range_one, mul_sub, ← C_mul]; norm_num; ring
  rw [this]; exact Deflated.lin 2 3

end
end Zm.PexEq
