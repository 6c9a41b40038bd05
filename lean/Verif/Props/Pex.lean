import Verif.Model.Pex
import Verif.Props.Misc
import Mathlib.Algebra.Polynomial.Derivative
import Mathlib.Algebra.Polynomial.Eval.SMul
import Mathlib.Algebra.Polynomial.Taylor
import Mathlib.Algebra.Polynomial.BigOperators
import Mathlib.Algebra.Polynomial.Div
import Mathlib.Algebra.Polynomial.AlgebraMap
import Mathlib.Data.Complex.Basic
import Mathlib.LinearAlgebra.Complex.Module
import Mathlib.Tactic.Ring
import Mathlib.Tactic.FieldSimp
import Mathlib.Tactic.LinearCombination

/-! # C20–C26: polynomial expressions

The specification is Mathlib's `Polynomial`. -/

set_option linter.unusedSectionVars false
set_option linter.unusedDecidableInType false

namespace Zm.Pex
open Zm Misc Finset Polynomial
variable {K : Type*} [Field K] [DecidableEq K]

/-- The polynomial with the `N` coefficients `c 0, …, c (N-1)`. -/
noncomputable def poly (N : Nat) (c : Nat → K) : K[X] := ∑ i ∈ range N, C (c i) * X ^ i

/-- The polynomial represented by a `zPex`. -/
noncomputable def toPoly (p : Pex K) : K[X] := poly p.size p.c

theorem poly_coeff (N : Nat) (c : Nat → K) (k : Nat) : (poly N c).coeff k = if k < N then c k else 0 := by
  unfold poly
  rw [finsetSum_coeff]
  simp only [coeff_C_mul, coeff_X_pow, mul_ite, mul_one, mul_zero]
  rw [Finset.sum_ite_eq]
  simp

theorem poly_set1_add (N : Nat) (c : Nat → K) (i : Nat) (hi : i < N) (x : K) :
    poly N (set1 c i (c i + x)) = poly N c + C x * X ^ i := by
  ext k
  rw [coeff_add, poly_coeff, poly_coeff, coeff_C_mul, coeff_X_pow]
  by_cases hk : k = i
  · subst hk; simp [hi]
  · rw [set1_ne _ _ hk]; simp [hk]

theorem poly_zero (N : Nat) : poly N (fun _ => (0:K)) = 0 := by
  unfold poly; simp

theorem poly_ext {N : Nat} {c d : Nat → K} (h : ∀ i, i < N → c i = d i) : poly N c = poly N d := by
  unfold poly
  exact sum_congr rfl fun i hi => by rw [h i (mem_range.1 hi)]

theorem poly_extend {N M : Nat} {c : Nat → K} (hNM : N ≤ M) (h : ∀ i, N ≤ i → i < M → c i = 0) : poly M c = poly N c := by
  ext k
  rw [poly_coeff, poly_coeff]
  by_cases h1 : k < N
  · rw [if_pos h1, if_pos (by omega)]
  · rw [if_neg h1]
    split
    · exact h k (by omega) ‹_›
    · rfl

theorem poly_natDegree (d : Nat) (c : Nat → K) (h : c d ≠ 0) : (poly (d+1) c).natDegree = d := by
  refine le_antisymm ?_ (le_natDegree_of_ne_zero ?_)
  · rw [natDegree_le_iff_coeff_eq_zero]
    intro N hN
    rw [poly_coeff, if_neg (by omega)]
  · rw [poly_coeff, if_pos (by omega)]; exact h

/-! ## zPexRgl -/

theorem rglDim_some (c : Nat → K) (d e : Nat) (h : rglDim c d = some e) :
    e ≤ d ∧ c e ≠ 0 ∧ ∀ i, e < i → i ≤ d → c i = 0 := by
  induction d with
  | zero =>
    unfold rglDim at h
    split at h
    · injection h with h; subst h
      exact ⟨le_refl _, by assumption, fun i h1 h2 => by omega⟩
    · cases h
  | succ d ih =>
    unfold rglDim at h
    split at h
    · injection h with h; subst h
      exact ⟨le_refl _, by assumption, fun i h1 h2 => by omega⟩
    · rename_i h0
      obtain ⟨h1, h2, h3⟩ := ih h
      refine ⟨by omega, h2, fun i hi1 hi2 => ?_⟩
      by_cases hid : i = d + 1
      · subst hid; exact not_not.1 h0
      · exact h3 i hi1 (by omega)

theorem rglDim_none (c : Nat → K) (d : Nat) (h : rglDim c d = none) : ∀ i, i ≤ d → c i = 0 := by
  induction d with
  | zero =>
    unfold rglDim at h
    split at h
    · cases h
    · intro i hi
      have : i = 0 := by omega
      subst this; exact not_not.1 ‹_›
  | succ d ih =>
    unfold rglDim at h
    split at h
    · cases h
    · rename_i h0
      intro i hi
      by_cases hid : i = d + 1
      · subst hid; exact not_not.1 h0
      · exact ih h i (by omega)

/-- **C26, partial.** For a non-zero polynomial `zPexRgl` keeps the polynomial and removes exactly the vanishing leading
coefficients: the new number of coefficients is the degree plus one. -/
theorem zPexRgl_correct_partial (p : Pex K) (h : toPoly p ≠ 0) :
    ∃ r, zPexRgl p = .ok r ∧ toPoly r = toPoly p ∧ r.size = (toPoly p).natDegree + 1 := by
  have hs : p.size ≠ 0 := by
    intro h0; apply h; unfold toPoly poly; rw [h0]; simp
  unfold zPexRgl
  rw [if_neg hs]
  cases hd : rglDim p.c (p.size - 1) with
  | none =>
    exfalso; apply h
    have := rglDim_none _ _ hd
    unfold toPoly
    rw [poly_ext (d := fun _ => 0) (fun i hi => this i (by omega)), poly_zero]
  | some d =>
    obtain ⟨h1, h2, h3⟩ := rglDim_some _ _ _ hd
    have e : toPoly p = poly (d+1) p.c := poly_extend (by omega) (fun i hi1 hi2 => h3 i (by omega) (by omega))
    refine ⟨_, rfl, ?_, ?_⟩
    · rw [e]; rfl
    · rw [e, poly_natDegree d p.c h2]

/-- **C26 is violated** for the zero polynomial of any size: the loop runs below index 0. -/
theorem zPexRgl_zero_ub (p : Pex K) (h : toPoly p = 0) : zPexRgl p = .ub := by
  unfold zPexRgl
  by_cases hs : p.size = 0
  · rw [if_pos hs]
  · rw [if_neg hs]
    cases hd : rglDim p.c (p.size - 1) with
    | none => rfl
    | some d =>
      exfalso
      obtain ⟨h1, h2, -⟩ := rglDim_some _ _ _ hd
      have := congrArg (fun q => q.coeff d) h
      simp only [toPoly, poly_coeff, coeff_zero] at this
      rw [if_pos (by omega)] at this
      exact h2 this

/-! ## Ring operations -/

theorem forUp_addc (n N : Nat) (hn : n ≤ N) (c d : Nat → K) (s : K) :
    poly N (forUp 0 n (fun i c => set1 c i (c i + s * d i)) c) = poly N c + C s * poly n d := by
  have := forUp_inv (lo := 0) (hi := n) (fun i (c : Nat → K) => set1 c i (c i + s * d i)) c
    (fun k t => poly N t = poly N c + C s * poly k d) (Nat.zero_le _) (by simp [poly])
    (by
      intro k t _ hk h
      rw [poly_set1_add N t k (by omega), h]
      unfold poly
      rw [sum_range_succ, C_mul]; ring)
  exact this

theorem addDRC_spec (p1 p2 : Pex K) (h2 : 0 < p2.size) (h : p2.size ≤ p1.size) :
    ∃ r, zPexAddDRC p1 p2 = .ok r ∧ r.size = p1.size ∧ toPoly r = toPoly p1 + toPoly p2 := by
  refine ⟨{ p1 with c := forUp 0 p2.size (fun i c => set1 c i (c i + p2.c i)) p1.c }, ?_, rfl, ?_⟩
  · unfold zPexAddDRC; rw [if_neg (by omega), if_neg (by omega)]
  · have := forUp_addc p2.size p1.size h p1.c p2.c 1
    simpa [toPoly] using this

theorem subDRC_spec (p1 p2 : Pex K) (h2 : 0 < p2.size) (h : p2.size ≤ p1.size) :
    ∃ r, zPexSubDRC p1 p2 = .ok r ∧ r.size = p1.size ∧ toPoly r = toPoly p1 - toPoly p2 := by
  refine ⟨{ p1 with c := forUp 0 p2.size (fun i c => set1 c i (c i - p2.c i)) p1.c }, ?_, rfl, ?_⟩
  · unfold zPexSubDRC; rw [if_neg (by omega), if_neg (by omega)]
  · have := forUp_addc p2.size p1.size h p1.c p2.c (-1)
    have e : (fun i (c : Nat → K) => set1 c i (c i + -1 * p2.c i)) = fun i c => set1 c i (c i - p2.c i) := by
      funext i c; congr 1; ring
    rw [e] at this
    simp only [toPoly]
    rw [this]; simp; ring

/-- Size errors of the destructive operations are reported. -/
theorem zPexAddDRC_mismatch (p1 p2 : Pex K) (h : p1.size < p2.size) : zPexAddDRC p1 p2 = .fail ∧ zPexSubDRC p1 p2 = .fail := by
  unfold zPexAddDRC zPexSubDRC; rw [if_neg (by omega), if_pos h, if_neg (by omega), if_pos h]; exact ⟨rfl, rfl⟩

theorem add_core (op : Pex K → Pex K → Res (Pex K)) (s : K) (hop : ∀ p1 p2 : Pex K, 0 < p2.size → p2.size ≤ p1.size →
      ∃ r, op p1 p2 = .ok r ∧ r.size = p1.size ∧ toPoly r = toPoly p1 + C s * toPoly p2)
    (p1 p2 : Pex K) (h1 : 0 < p1.size) (h2 : 0 < p2.size) :
    ∃ p, ((alloc (max p1.size p2.size)).bind fun p => (ignoreFail p (zPexAddDRC p p1)).bind fun p =>
      (ignoreFail p (op p p2)).bind zPexRgl) = zPexRgl p ∧ toPoly p = toPoly p1 + C s * toPoly p2 := by
  have e : (alloc (max p1.size p2.size) : Res (Pex K)) = .ok { size := max p1.size p2.size, c := fun _ => 0 } := by
    unfold alloc; rw [if_neg (by omega)]
  rw [e]
  obtain ⟨a, ea, sa, ha⟩ := addDRC_spec ({ size := max p1.size p2.size, c := fun _ => 0 } : Pex K) p1 h1 (by simp)
  obtain ⟨b, eb, sb, hb⟩ := hop a p2 h2 (by rw [sa]; simp)
  refine ⟨b, ?_, ?_⟩
  · simp only [Res.bind]
    rw [ea]; simp only [ignoreFail]; rw [eb]
  · rw [hb, ha]; simp only [toPoly, poly_zero]; ring

/-- **C21, partial.** `zPexAdd` returns the sum of the polynomials (regularised), when that sum is not zero. -/
theorem zPexAdd_correct_partial (p1 p2 : Pex K) (h1 : 0 < p1.size) (h2 : 0 < p2.size) (h : toPoly p1 + toPoly p2 ≠ 0) :
    ∃ r, zPexAdd p1 p2 = .ok r ∧ toPoly r = toPoly p1 + toPoly p2 ∧ r.size = (toPoly p1 + toPoly p2).natDegree + 1 := by
  obtain ⟨p, e, hp⟩ := add_core zPexAddDRC 1 (by
    intro p1 p2 h2 h; obtain ⟨r, a, b, c⟩ := addDRC_spec p1 p2 h2 h
    exact ⟨r, a, b, by rw [c]; simp⟩) p1 p2 h1 h2
  rw [C_1, one_mul] at hp
  obtain ⟨r, er, hr, hs⟩ := zPexRgl_correct_partial p (by rw [hp]; exact h)
  exact ⟨r, by unfold zPexAdd; rw [e, er], by rw [hr, hp], by rw [hs, hp]⟩

/-- **C21 is violated** when the sum vanishes: memory before the coefficients is read. -/
theorem zPexAdd_zero_ub (p1 p2 : Pex K) (h1 : 0 < p1.size) (h2 : 0 < p2.size) (h : toPoly p1 + toPoly p2 = 0) :
    zPexAdd p1 p2 = .ub := by
  obtain ⟨p, e, hp⟩ := add_core zPexAddDRC 1 (by
    intro p1 p2 h2 h; obtain ⟨r, a, b, c⟩ := addDRC_spec p1 p2 h2 h
    exact ⟨r, a, b, by rw [c]; simp⟩) p1 p2 h1 h2
  rw [C_1, one_mul] at hp
  unfold zPexAdd; rw [e]
  exact zPexRgl_zero_ub p (by rw [hp]; exact h)

/-- **C21, partial.** `zPexSub` returns the difference of the polynomials, when it is not zero. -/
theorem zPexSub_correct_partial (p1 p2 : Pex K) (h1 : 0 < p1.size) (h2 : 0 < p2.size) (h : toPoly p1 ≠ toPoly p2) :
    ∃ r, zPexSub p1 p2 = .ok r ∧ toPoly r = toPoly p1 - toPoly p2 ∧ r.size = (toPoly p1 - toPoly p2).natDegree + 1 := by
  obtain ⟨p, e, hp⟩ := add_core zPexSubDRC (-1) (by
    intro p1 p2 h2 h; obtain ⟨r, a, b, c⟩ := subDRC_spec p1 p2 h2 h
    exact ⟨r, a, b, by rw [c]; simp; ring⟩) p1 p2 h1 h2
  have hp' : toPoly p = toPoly p1 - toPoly p2 := by rw [hp]; simp; ring
  obtain ⟨r, er, hr, hs⟩ := zPexRgl_correct_partial p (by rw [hp']; exact sub_ne_zero.2 h)
  exact ⟨r, by unfold zPexSub; rw [e, er], by rw [hr, hp'], by rw [hs, hp']⟩

/-- **C21 is violated** by `zPexSub` of a polynomial from an equal one, e.g. from itself. -/
theorem zPexSub_self_ub (p1 p2 : Pex K) (h1 : 0 < p1.size) (h2 : 0 < p2.size) (h : toPoly p1 = toPoly p2) :
    zPexSub p1 p2 = .ub := by
  obtain ⟨p, e, hp⟩ := add_core zPexSubDRC (-1) (by
    intro p1 p2 h2 h; obtain ⟨r, a, b, c⟩ := subDRC_spec p1 p2 h2 h
    exact ⟨r, a, b, by rw [c]; simp; ring⟩) p1 p2 h1 h2
  have hp' : toPoly p = 0 := by rw [hp, h]; simp
  unfold zPexSub; rw [e]
  exact zPexRgl_zero_ub p hp'

theorem mul_loop (p1 p2 : Pex K) (h1 : 0 < p1.size) (h2 : 0 < p2.size) :
    poly (p1.size + p2.size - 1) (forUp 0 p2.size (fun i c => forUp 0 p1.size (fun j c =>
      set1 c (i+j) (c (i+j) + p2.c i * p1.c j)) c) (fun _ => 0)) = toPoly p1 * toPoly p2 := by
  have inner : ∀ i, i < p2.size → ∀ t : Nat → K, poly (p1.size + p2.size - 1) (forUp 0 p1.size (fun j c =>
      set1 c (i+j) (c (i+j) + p2.c i * p1.c j)) t) = poly (p1.size + p2.size - 1) t + C (p2.c i) * X ^ i * toPoly p1 := by
    intro i hi t
    have := forUp_inv (lo := 0) (hi := p1.size) (fun j (c : Nat → K) => set1 c (i+j) (c (i+j) + p2.c i * p1.c j)) t
      (fun k s => poly (p1.size + p2.size - 1) s = poly (p1.size + p2.size - 1) t + C (p2.c i) * X ^ i * poly k p1.c)
      (Nat.zero_le _) (by simp [poly])
      (by
        intro k s _ hk h
        rw [poly_set1_add _ _ _ (by omega), h]
        unfold poly
        rw [sum_range_succ, C_mul, pow_add]; ring)
    exact this
  have := forUp_inv (lo := 0) (hi := p2.size) (fun i (c : Nat → K) => forUp 0 p1.size (fun j c =>
      set1 c (i+j) (c (i+j) + p2.c i * p1.c j)) c) (fun _ => 0)
    (fun k t => poly (p1.size + p2.size - 1) t = toPoly p1 * poly k p2.c) (Nat.zero_le _) (by rw [poly_zero]; simp [poly])
    (by
      intro k t _ hk h
      rw [inner k hk t, h]
      conv_rhs => unfold poly
      rw [sum_range_succ]
      change toPoly p1 * poly k p2.c + _ = toPoly p1 * (poly k p2.c + _)
      ring)
  exact this

/-- **C21, partial.** `zPexMul` returns the product of non-zero polynomials. -/
theorem zPexMul_correct_partial (p1 p2 : Pex K) (h1 : toPoly p1 ≠ 0) (h2 : toPoly p2 ≠ 0) :
    ∃ r, zPexMul p1 p2 = .ok r ∧ toPoly r = toPoly p1 * toPoly p2 ∧ r.size = (toPoly p1 * toPoly p2).natDegree + 1 := by
  have s1 : 0 < p1.size := by
    by_contra h; apply h1; unfold toPoly poly; rw [show p1.size = 0 by omega]; simp
  have s2 : 0 < p2.size := by
    by_contra h; apply h2; unfold toPoly poly; rw [show p2.size = 0 by omega]; simp
  have hm := mul_loop p1 p2 s1 s2
  unfold zPexMul alloc
  rw [if_neg (by omega)]
  simp only [Res.bind]
  obtain ⟨r, er, hr, hs⟩ := zPexRgl_correct_partial ({ size := p1.size + p2.size - 1, c := (forUp 0 p2.size (fun i c => forUp 0 p1.size (fun j c =>
      set1 c (i+j) (c (i+j) + p2.c i * p1.c j)) c) (fun _ => 0)) } : Pex K) (by
        unfold toPoly; simp only; rw [hm]; exact mul_ne_zero h1 h2)
  refine ⟨r, er, ?_, ?_⟩
  · rw [hr]; exact hm
  · rw [hs]; unfold toPoly at hm ⊢; simp only; rw [hm]

/-- **C21 is violated** by a product with the zero polynomial. -/
theorem zPexMul_zero_ub (p1 p2 : Pex K) (s1 : 0 < p1.size) (s2 : 0 < p2.size) (h : toPoly p1 = 0 ∨ toPoly p2 = 0) :
    zPexMul p1 p2 = .ub := by
  have hm := mul_loop p1 p2 s1 s2
  unfold zPexMul alloc
  rw [if_neg (by omega)]
  simp only [Res.bind]
  refine zPexRgl_zero_ub _ ?_
  unfold toPoly; simp only; rw [hm]
  exact mul_eq_zero.2 h

/-! ## Division -/

theorem divDRC_spec (f : Nat → K) (m : Nat) (hf : f m ≠ 0) : ∀ k p q,
    (∀ i, k ≤ i → (divDRC f m k p q).2 i = q i) ∧
    poly (m+k) p = poly k (divDRC f m k p q).2 * poly (m+1) f + poly m (divDRC f m k p q).1 := by
  intro k
  induction k with
  | zero => intro p q; exact ⟨fun _ _ => rfl, by simp [divDRC, poly]⟩
  | succ k ih =>
    intro p q
    unfold divDRC
    simp only
    obtain ⟨a, ha⟩ : ∃ a, a = p (m+k) / f m := ⟨_, rfl⟩
    rw [← ha]
    obtain ⟨p', hp'⟩ : ∃ p', p' = forUp 1 (m+1) (fun i p => set1 p (m+k-i) (p (m+k-i) - a * f (m-i))) p := ⟨_, rfl⟩
    rw [← hp']
    obtain ⟨h1, h2⟩ := ih p' (set1 q k a)
    have hk : (divDRC f m k p' (set1 q k a)).2 k = a := by rw [h1 k (le_refl _), set1_same]
    refine ⟨fun i hi => by rw [h1 i (by omega), set1_ne _ _ (by omega)], ?_⟩
    -- the subtraction loop
    have hloop : ∀ i, p' i = if k ≤ i ∧ i < m + k then p i - a * f (i - k) else p i := by
      have := forUp_inv (lo := 1) (hi := m+1) (fun i (p : Nat → K) => set1 p (m+k-i) (p (m+k-i) - a * f (m-i))) p
        (fun t s => ∀ i, s i = if m + k < i + t ∧ i < m + k then p i - a * f (i - k) else p i) (by omega)
        (by intro i; rw [if_neg (by omega)])
        (by
          intro t s ht1 ht2 h i
          by_cases hi : i = m + k - t
          · rw [hi, set1_same, h, if_neg (by omega), if_pos (by omega), show m + k - t - k = m - t by omega]
          · rw [set1_ne _ _ hi, h]
            by_cases hc : m + k < i + t ∧ i < m + k
            · rw [if_pos hc, if_pos (by omega)]
            · rw [if_neg hc, if_neg (by omega)])
      intro i
      rw [hp', this i]
      by_cases hc : k ≤ i ∧ i < m + k
      · rw [if_pos hc, if_pos (by omega)]
      · rw [if_neg hc, if_neg (by omega)]
    have key : poly (m+(k+1)) p = C a * X ^ k * poly (m+1) f + poly (m+k) p' := by
      ext j
      rw [coeff_add, poly_coeff, poly_coeff, mul_assoc, coeff_C_mul, coeff_X_pow_mul', poly_coeff, hloop]
      by_cases h1 : j < m + k
      · by_cases h2 : k ≤ j
        · rw [if_pos (show j < m + (k+1) by omega), if_pos h1, if_pos (show k ≤ j ∧ j < m + k from ⟨h2, h1⟩), if_pos h2,
            if_pos (show j - k < m + 1 by omega)]; ring
        · rw [if_pos (show j < m + (k+1) by omega), if_pos h1, if_neg (show ¬ (k ≤ j ∧ j < m + k) by omega), if_neg h2]; ring
      · by_cases h3 : j = m + k
        · subst h3
          rw [if_pos (by omega), if_neg h1, if_pos (by omega), if_pos (by omega), ha, show m + k - k = m by omega]
          field_simp; ring
        · rw [if_neg (by omega), if_neg h1]
          by_cases h4 : k ≤ j
          · rw [if_pos h4, if_neg (by omega)]; ring
          · rw [if_neg h4]; ring
    rw [key, h2]
    have : poly (k+1) (divDRC f m k p' (set1 q k a)).2 = poly k (divDRC f m k p' (set1 q k a)).2 + C a * X ^ k := by
      unfold poly; rw [sum_range_succ, hk]
    rw [this]; ring

/-- **C22, partial.** `zPexDiv` by a divisor of degree at least 1 and at most that of the dividend, with a non-zero
remainder: quotient and remainder satisfy `p = q f + r` with `deg r < deg f`.
Missing: the code rejects constant divisors and dividends of smaller degree (`zPexDiv_rejects`), and reads outside the
remainder when the division is exact (`zPexDiv_exact_ub`). -/
theorem zPexDiv_correct_partial (p f : Pex K) (h1 : 2 ≤ f.size) (h2 : f.size ≤ p.size) (hf : f.c (f.size - 1) ≠ 0)
    (hr : ¬ toPoly f ∣ toPoly p) :
    ∃ q r, zPexDiv p f = .ok (q, r) ∧ toPoly p = toPoly q * toPoly f + toPoly r ∧ r.size < f.size ∧
      (toPoly r).degree < (toPoly f).degree ∧ r.size = (toPoly r).natDegree + 1 := by
  obtain ⟨m, hm⟩ : ∃ m, f.size = m + 1 := ⟨f.size - 1, by omega⟩
  have hsp := (divDRC_spec f.c m (by rw [hm] at hf; exact hf) (p.size - m) p.c (fun _ => 0)).2
  rw [show m + (p.size - m) = p.size by omega] at hsp
  unfold zPexDiv
  rw [if_neg (by omega), if_neg (by omega), if_neg hf]
  simp only [hm, Nat.add_sub_cancel]
  generalize divDRC f.c m (p.size - m) p.c (fun _ => 0) = s at hsp
  obtain ⟨p', q⟩ := s
  simp only at hsp ⊢
  have hF : toPoly f = poly (m+1) f.c := by unfold toPoly; rw [hm]
  have hne : toPoly ({ size := m, c := p' } : Pex K) ≠ 0 := by
    intro h0; apply hr
    unfold toPoly at h0 ⊢
    simp only at h0
    rw [hsp, h0, add_zero, hm]
    exact Dvd.intro_left _ rfl
  obtain ⟨r, er, hr1, hr2⟩ := zPexRgl_correct_partial _ hne
  rw [er]
  have hdf : (toPoly f).degree = m := by
    rw [hF, degree_eq_natDegree, poly_natDegree m f.c (by rw [hm] at hf; exact hf)]
    intro h0
    have := congrArg (fun q => q.coeff m) h0
    simp only [poly_coeff, coeff_zero] at this
    rw [if_pos (by omega)] at this
    rw [hm] at hf; exact hf this
  have hdr : (toPoly ({ size := m, c := p' } : Pex K)).degree < m := by
    rw [degree_lt_iff_coeff_zero]
    intro j hj
    simp only [toPoly, poly_coeff]
    rw [if_neg (by omega)]
  refine ⟨_, r, rfl, ?_, ?_, ?_, ?_⟩
  · rw [hr1, hF]; exact hsp
  · rw [hr2]
    have := (natDegree_lt_iff_degree_lt hne).2 hdr
    omega
  · rw [hr1, hdf]; exact hdr
  · rw [hr2, hr1]

/-- **C22 is violated** by exact divisions: memory before the remainder is read. -/
theorem zPexDiv_exact_ub (p f : Pex K) (h1 : 2 ≤ f.size) (h2 : f.size ≤ p.size) (hf : f.c (f.size - 1) ≠ 0)
    (hd : toPoly f ∣ toPoly p) : zPexDiv p f = .ub := by
  obtain ⟨m, hm⟩ : ∃ m, f.size = m + 1 := ⟨f.size - 1, by omega⟩
  have hfm : f.c m ≠ 0 := by rw [hm] at hf; exact hf
  have hsp := (divDRC_spec f.c m hfm (p.size - m) p.c (fun _ => 0)).2
  rw [show m + (p.size - m) = p.size by omega] at hsp
  unfold zPexDiv
  rw [if_neg (by omega), if_neg (by omega), if_neg hf]
  simp only [hm, Nat.add_sub_cancel]
  generalize divDRC f.c m (p.size - m) p.c (fun _ => 0) = s at hsp
  obtain ⟨p', q⟩ := s
  simp only at hsp ⊢
  have hF : toPoly f = poly (m+1) f.c := by unfold toPoly; rw [hm]
  have hF0 : poly (m+1) f.c ≠ 0 := by
    intro h0
    have := congrArg (fun q => q.coeff m) h0
    simp only [poly_coeff, coeff_zero] at this
    rw [if_pos (by omega)] at this
    exact hfm this
  have hz : toPoly ({ size := m, c := p' } : Pex K) = 0 := by
    have hdvd : poly (m+1) f.c ∣ poly m p' := by
      rw [hF] at hd
      have : poly m p' = toPoly p - poly (p.size - m) q * poly (m+1) f.c := by
        unfold toPoly; rw [hsp]; ring
      rw [this]
      exact dvd_sub hd (Dvd.intro_left _ rfl)
    by_contra hne
    refine absurd (degree_le_of_dvd hdvd hne) (not_le.2 ?_)
    rw [degree_eq_natDegree hF0, poly_natDegree m f.c hfm, degree_lt_iff_coeff_zero]
    intro j hj
    rw [poly_coeff, if_neg (by omega)]
  rw [zPexRgl_zero_ub _ hz]
  rfl

/-- **C22 gap.** Constant divisors and dividends of smaller degree are rejected. -/
theorem zPexDiv_rejects (p f : Pex K) (hp : 0 < p.size) (hf : 0 < f.size) (h : p.size < f.size ∨ f.size = 1) :
    zPexDiv p f = .fail := by
  unfold zPexDiv
  rw [if_neg (by omega), if_pos (by omega)]

/-! ## Evaluation -/

theorem eval_poly (N : Nat) (c : Nat → K) (x : K) : (poly N c).eval x = ∑ i ∈ range N, c i * x ^ i := by
  unfold poly
  rw [eval_finsetSum]
  exact sum_congr rfl fun i _ => by simp

/-- **C20** `zPexVal` evaluates the polynomial. -/
theorem zPexVal_correct (p : Pex K) (hp : 0 < p.size) (x : K) : zPexVal p x = (toPoly p).eval x := by
  obtain ⟨n, hn⟩ : ∃ n, p.size = n + 1 := ⟨p.size - 1, by omega⟩
  unfold zPexVal toPoly
  rw [hn, Nat.add_sub_cancel, eval_poly]
  by_cases h0 : x = 0
  · rw [if_pos h0, h0, sum_range_succ', sum_eq_zero]
    · simp
    · intro i _; simp
  · rw [if_neg h0]
    have := forDown_inv (lo := 0) (hi := n) (fun i val => val * x + p.c i) (p.c n)
      (fun k v => v * x ^ k + ∑ i ∈ range k, p.c i * x ^ i = ∑ i ∈ range (n+1), p.c i * x ^ i) (Nat.zero_le _)
      (by rw [sum_range_succ]; ring)
      (by
        intro k v _ hk h
        rw [← h, sum_range_succ]
        ring)
    simpa using this

theorem cmul_eq (a b : ℂ) : cmul a b = a * b := by
  apply Complex.ext <;> simp [cmul, Complex.mul_re, Complex.mul_im]

/-- **C20** `zPexCVal` evaluates the polynomial at a complex number. -/
theorem zPexCVal_correct (p : Pex ℝ) (hp : 0 < p.size) (z : ℂ) : zPexCVal p z = (toPoly p).aeval z := by
  obtain ⟨n, hn⟩ : ∃ n, p.size = n + 1 := ⟨p.size - 1, by omega⟩
  have ev : (toPoly p).aeval z = ∑ i ∈ range (n+1), (p.c i : ℂ) * z ^ i := by
    unfold toPoly poly
    rw [hn, map_sum]
    exact sum_congr rfl fun i _ => by simp
  rw [ev]
  unfold zPexCVal
  rw [hn, Nat.add_sub_cancel]
  have := forDown_inv (lo := 0) (hi := n) (fun i (c : ℂ) => (⟨p.c i + (cmul c z).re, (cmul c z).im⟩ : ℂ)) (⟨p.c n, 0⟩ : ℂ)
    (fun k v => v * z ^ k + ∑ i ∈ range k, (p.c i : ℂ) * z ^ i = ∑ i ∈ range (n+1), (p.c i : ℂ) * z ^ i) (Nat.zero_le _)
    (by
      rw [sum_range_succ]
      have : (⟨p.c n, 0⟩ : ℂ) = (p.c n : ℂ) := rfl
      rw [this]; ring)
    (by
      intro k v _ hk h
      have : (⟨p.c k + (cmul v z).re, (cmul v z).im⟩ : ℂ) = (p.c k : ℂ) + v * z := by
        rw [cmul_eq]; apply Complex.ext <;> simp
      rw [this, ← h, sum_range_succ]
      ring)
  simpa using this

/-- **C20** `zPexDifVal` evaluates the derivative of any order. -/
theorem zPexDifVal_correct [CharZero K] (p : Pex K) (hp : 0 < p.size) (dim : Nat) (x : K) :
    zPexDifVal p dim x = (derivative^[dim] (toPoly p)).eval x := by
  obtain ⟨n, hn⟩ : ∃ n, p.size = n + 1 := ⟨p.size - 1, by omega⟩
  have hspec : (derivative^[dim] (toPoly p)).eval x = ∑ i ∈ range (n+1), (i.descFactorial dim : K) * p.c i * x ^ (i - dim) := by
    unfold toPoly poly
    rw [hn, iterate_derivative_sum, eval_finsetSum]
    refine sum_congr rfl fun i _ => ?_
    rw [iterate_derivative_C_mul, iterate_derivative_X_pow_eq_natCast_mul]
    simp; ring
  rw [hspec]
  unfold zPexDifVal
  simp only [hn, Nat.add_sub_cancel]
  rw [zPermutation_eq]
  by_cases hd : dim ≤ n
  · rw [if_pos ⟨by omega, by omega⟩]
    simp only [Int.toNat_natCast]
    have := forDown_inv (lo := dim) (hi := n) (fun i (s : K × K) =>
      (s.1 * (((i + 1 - dim : Nat) : K) / ((i + 1 : Nat) : K)),
        s.1 * (((i + 1 - dim : Nat) : K) / ((i + 1 : Nat) : K)) * p.c i + s.2 * x))
      ((n.descFactorial dim : K), (n.descFactorial dim : K) * p.c n)
      (fun k s => s.1 = (k.descFactorial dim : K) ∧ s.2 * x ^ (k - dim) + ∑ i ∈ range k, (i.descFactorial dim : K) * p.c i * x ^ (i - dim) =
        ∑ i ∈ range (n+1), (i.descFactorial dim : K) * p.c i * x ^ (i - dim)) hd
      ⟨rfl, by rw [sum_range_succ]; ring⟩
      (by
        rintro k ⟨c, v⟩ hk1 hk2 ⟨h1, h2⟩
        simp only at h1 h2 ⊢
        have e : c * (((k + 1 - dim : Nat) : K) / ((k + 1 : Nat) : K)) = (k.descFactorial dim : K) := by
          rw [h1]
          have := Nat.succ_descFactorial k dim
          have h3 : ((k + 1 - dim : Nat) : K) * ((k+1).descFactorial dim : K) = ((k + 1 : Nat) : K) * (k.descFactorial dim : K) := by
            exact_mod_cast this
          have h4 : ((k + 1 : Nat) : K) ≠ 0 := Nat.cast_ne_zero.2 (by omega)
          field_simp
          rw [mul_comm, h3]
        refine ⟨e, ?_⟩
        rw [e, ← h2, sum_range_succ, show k + 1 - dim = (k - dim) + 1 by omega]
        ring)
    obtain ⟨-, h2⟩ := this
    rw [Nat.sub_self, pow_zero, mul_one] at h2
    rw [← h2]
    rw [add_eq_left.2]
    refine sum_eq_zero fun i hi => ?_
    rw [mem_range] at hi
    rw [Nat.descFactorial_eq_zero_iff_lt.2 hi]; simp
  · rw [if_neg (by omega), forDown_of_le (by omega)]
    simp only [zero_mul]
    symm
    refine sum_eq_zero fun i hi => ?_
    rw [mem_range] at hi
    rw [Nat.descFactorial_eq_zero_iff_lt.2 (by omega)]; simp

/-! ## Differentiation and integration -/

/-- **C24** `zPexDif` returns the derivative of every polynomial of positive formal degree; a constant is rejected. -/
theorem zPexDif_correct (p : Pex K) (hp : 2 ≤ p.size) : ∃ q, zPexDif p = .ok q ∧ toPoly q = derivative (toPoly p) ∧ q.size = p.size - 1 := by
  obtain ⟨n, hn⟩ : ∃ n, p.size = n + 1 := ⟨p.size - 1, by omega⟩
  unfold zPexDif alloc
  rw [if_neg (by omega)]
  refine ⟨_, rfl, ?_, rfl⟩
  unfold toPoly
  simp only
  rw [hn, Nat.add_sub_cancel, forUp_set1 (fun i _ => p.c (i+1) * ((i+1 : Nat) : K)) _ (fun i => p.c (i+1) * ((i+1 : Nat) : K)) (fun _ _ _ _ _ _ => rfl)]
  ext k
  rw [poly_coeff, coeff_derivative, poly_coeff]
  by_cases hk : k < n
  · rw [if_pos hk, if_pos ⟨Nat.zero_le _, hk⟩, if_pos (by omega)]; push_cast; ring
  · rw [if_neg hk, if_neg (by omega)]; ring

theorem zPexDif_constant (p : Pex K) (hp : p.size = 1) : zPexDif p = .fail := by
  unfold zPexDif alloc; rw [hp]; rfl

/-- **C24** `zPexIntg` returns the antiderivative without constant term. -/
theorem zPexIntg_correct [CharZero K] (p : Pex K) : ∃ q, zPexIntg p = .ok q ∧ derivative (toPoly q) = toPoly p ∧
    (toPoly q).coeff 0 = 0 ∧ q.size = p.size + 1 := by
  unfold zPexIntg alloc
  rw [if_neg (by omega)]
  have hl : ∀ i, forUp 0 p.size (fun i c => set1 c (i+1) (p.c i / ((i+1 : Nat) : K))) (fun _ => (0:K)) i =
      if 0 < i ∧ i ≤ p.size then p.c (i-1) / (i : K) else 0 := by
    have := forUp_inv (lo := 0) (hi := p.size) (fun i (c : Nat → K) => set1 c (i+1) (p.c i / ((i+1 : Nat) : K))) (fun _ => (0:K))
      (fun k t => ∀ i, t i = if 0 < i ∧ i ≤ k then p.c (i-1) / (i : K) else 0) (Nat.zero_le _)
      (by intro i; rw [if_neg (by omega)])
      (by
        intro k t _ hk h i
        by_cases hi : i = k + 1
        · subst hi; rw [set1_same, if_pos (by omega), Nat.add_sub_cancel]
        · rw [set1_ne _ _ hi, h]
          by_cases hc : 0 < i ∧ i ≤ k
          · rw [if_pos hc, if_pos (by omega)]
          · rw [if_neg hc, if_neg (by omega)])
    exact this
  refine ⟨_, rfl, ?_, ?_, rfl⟩
  · unfold toPoly
    ext k
    rw [coeff_derivative, poly_coeff, poly_coeff]
    simp only
    rw [hl]
    by_cases hk : k < p.size
    · rw [if_pos (by omega), if_pos (by omega), if_pos hk, Nat.add_sub_cancel]
      have : ((k:K) + 1) ≠ 0 := Nat.cast_add_one_ne_zero k
      push_cast; field_simp
    · rw [if_neg (by omega), if_neg hk]; ring
  · unfold toPoly
    rw [poly_coeff]
    simp only
    rw [hl, if_neg (show ¬ (0 < 0 ∧ 0 ≤ p.size) by omega)]; simp

/-- **C24** differentiating an integral gives back the polynomial. -/
theorem zPexDif_zPexIntg [CharZero K] (p : Pex K) (hp : 0 < p.size) :
    ∃ q r, zPexIntg p = .ok q ∧ zPexDif q = .ok r ∧ toPoly r = toPoly p ∧ r.size = p.size := by
  obtain ⟨q, e, h1, -, hs⟩ := zPexIntg_correct p
  obtain ⟨r, er, h2, hs2⟩ := zPexDif_correct q (by omega)
  exact ⟨q, r, e, er, by rw [h2, h1], by omega⟩

/-! ## Taylor shift -/

/-- **C25** the coefficients `b` written by `zPexModulo` satisfy `p(x) = Σ b_k (x+a)^k`. -/
theorem zPexModulo_correct (p1 p2 : Pex K) (a : K) (hs : p1.size = p2.size) (hp : 0 < p1.size) :
    ∃ r, zPexModulo p1 a p2 = .ok r ∧ r.size = p1.size ∧
      ∑ k ∈ range r.size, C (r.c k) * (X + C a) ^ k = toPoly p1 := by
  obtain ⟨n, hn⟩ : ∃ n, p1.size = n + 1 := ⟨p1.size - 1, by omega⟩
  unfold zPexModulo
  rw [if_neg (by simpa using hs), ← hs]
  refine ⟨_, rfl, rfl, ?_⟩
  simp only
  rw [hn, Nat.add_sub_cancel]
  unfold toPoly
  rw [hn]
  have inner : ∀ (i : Nat) (c : Nat → K), i ≤ n → ∀ j, forUp i n (fun j c => set1 c j (c j - a * c (j+1))) c j =
      if i ≤ j ∧ j < n then c j - a * c (j+1) else c j := by
    intro i c hi j
    rw [forUp_set1 (fun j (c : Nat → K) => c j - a * c (j+1)) c (fun j => c j - a * c (j+1))]
    intro k t h1 h2 _ h3
    rw [h3 k (by omega), h3 (k+1) (by omega)]
  have := forDown_inv (lo := 0) (hi := n) (fun i (c : Nat → K) => forUp i n (fun j c => set1 c j (c j - a * c (j+1))) c) p1.c
    (fun i c => (∀ j, j < i → c j = p1.c j) ∧
      ∑ k ∈ range (n+1-i), C (c (i+k)) * (X + C a) ^ k = ∑ k ∈ range (n+1-i), C (p1.c (i+k)) * X ^ k) (Nat.zero_le _)
    ⟨fun _ _ => rfl, by rw [show n + 1 - n = 1 by omega]; simp⟩
    (by
      rintro i c - hi ⟨h1, h2⟩
      refine ⟨fun j hj => by rw [inner i c hi.le, if_neg (by omega)]; exact h1 j (by omega), ?_⟩
      rw [show n + 1 - (i+1) = n - i by omega] at h2
      rw [show n + 1 - i = (n - i) + 1 by omega]
      -- right side: p_i + X Q
      have eR : ∑ k ∈ range (n-i+1), C (p1.c (i+k)) * X ^ k = C (p1.c i) + X * ∑ k ∈ range (n-i), C (c (i+1+k)) * (X + C a) ^ k := by
        rw [h2, sum_range_succ', mul_sum, add_comm]
        congr 1
        · simp
        · refine sum_congr rfl fun k _ => ?_
          rw [show i + (k+1) = i + 1 + k by omega, pow_succ]; ring
      rw [eR]
      have eX : (X : K[X]) = (X + C a) - C a := by ring
      conv_rhs => rw [eX]
      have hci : p1.c i = c i := (h1 i (by omega)).symm
      -- left side
      obtain ⟨m, hm⟩ : ∃ m, n - i = m + 1 := ⟨n - i - 1, by omega⟩
      have eL : ∑ k ∈ range (n-i+1), C (forUp i n (fun j c => set1 c j (c j - a * c (j+1))) c (i+k)) * (X + C a) ^ k =
          ∑ k ∈ range (n-i+1), C (c (i+k)) * (X + C a) ^ k - C a * ∑ k ∈ range (n-i), C (c (i+1+k)) * (X + C a) ^ k := by
        rw [sum_range_succ, sum_range_succ]
        rw [inner i c hi.le, if_neg (by omega), mul_sum, add_sub_right_comm, ← sum_sub_distrib]
        congr 1
        refine sum_congr rfl fun k hk => ?_
        rw [mem_range] at hk
        rw [inner i c hi.le, if_pos (by omega), show i + k + 1 = i + 1 + k by omega, C_sub, C_mul]; ring
      rw [eL, sum_range_succ', hci]
      have : ∀ k, C (c (i+(k+1))) * (X + C a) ^ (k+1) = (X + C a) * (C (c (i+1+k)) * (X + C a) ^ k) := by
        intro k; rw [show i + (k+1) = i + 1 + k by omega, pow_succ]; ring
      simp only [this]
      rw [← mul_sum]
      simp only [add_sub_cancel_right, add_zero, pow_zero, mul_one]
      ring)
  have h2 := this.2
  simp only [Nat.sub_zero, zero_add] at h2
  exact h2

theorem zPexModulo_mismatch (p1 p2 : Pex K) (a : K) (hs : p1.size ≠ p2.size) : zPexModulo p1 a p2 = .fail := by
  unfold zPexModulo; rw [if_pos hs]

/-! ## Polynomial from its roots -/

theorem zPexExpGo_spec : ∀ (fuel size : Nat) (buf : Nat → K), 0 < size → size ≤ fuel →
    ∃ p buf', zPexExpGo true fuel size buf = .ok (p, buf') ∧ toPoly p = ∏ i ∈ range size, (X - C (buf i)) ∧
      ∀ i, size ≤ i → buf' i = buf i := by
  intro fuel
  induction fuel with
  | zero => intro size buf h1 h2; omega
  | succ fuel ih =>
    intro size buf h1 h2
    unfold zPexExpGo
    by_cases hs : size = 1
    · subst hs
      rw [if_pos rfl]
      refine ⟨_, _, rfl, ?_, fun _ _ => rfl⟩
      simp [toPoly, poly, sum_range_succ]
      ring
    · rw [if_neg hs]
      simp only
      obtain ⟨p1, b1, e1, hp1, hb1⟩ := ih (size/2) buf (by omega) (by omega)
      rw [e1]
      simp only [Res.bind, memcpyDown, Bool.not_true, Bool.false_and, Bool.false_eq_true, if_false]
      obtain ⟨p2, b2, e2, hp2, hb2⟩ := ih (size - size/2) (fun i => if i < size - size/2 then b1 (i + size/2) else b1 i) (by omega) (by omega)
      rw [e2]
      simp only
      have hp2' : toPoly p2 = ∏ i ∈ range (size - size/2), (X - C (buf (size/2 + i))) := by
        rw [hp2]
        refine prod_congr rfl fun i hi => ?_
        rw [mem_range] at hi
        rw [if_pos hi, hb1 _ (by omega), add_comm]
      have ne1 : toPoly p1 ≠ 0 := by rw [hp1]; exact prod_ne_zero_iff.2 fun i _ => X_sub_C_ne_zero _
      have ne2 : toPoly p2 ≠ 0 := by rw [hp2']; exact prod_ne_zero_iff.2 fun i _ => X_sub_C_ne_zero _
      obtain ⟨r, er, hr, -⟩ := zPexMul_correct_partial p1 p2 ne1 ne2
      rw [er]
      refine ⟨r, b2, rfl, ?_, ?_⟩
      · rw [hr, hp1, hp2', ← prod_range_add, show size/2 + (size - size/2) = size by omega]
      · intro i hi
        rw [hb2 i (by omega), if_neg (by omega), hb1 i (by omega)]

/-- **C23, partial.** With an implementation of `memcpy` that copies upwards, `zPexExp` returns `∏ (x - aᵢ)` for every
non-empty list of factors.  Missing: a strictly conforming C implementation, see `zPexExp_overlap_ub`. -/
theorem zPexExp_correct_partial (size : Nat) (hs : 0 < size) (factor : Nat → K) :
    ∃ p, zPexExp true size factor = .ok p ∧ toPoly p = ∏ i ∈ range size, (X - C (factor i)) := by
  obtain ⟨p, b, e, h, -⟩ := zPexExpGo_spec size size factor hs (le_refl _)
  refine ⟨p, ?_, h⟩
  unfold zPexExp
  rw [if_neg (by omega), e]; rfl

/-- With strict `memcpy`, the numbers of factors that never lead to an overlapping copy are the powers of two. -/
theorem zPexExpGo_pow2 : ∀ (fuel k : Nat) (buf : Nat → K), 2 ^ k ≤ fuel →
    zPexExpGo false fuel (2 ^ k) buf = zPexExpGo true fuel (2 ^ k) buf := by
  intro fuel
  induction fuel with
  | zero => intro k buf h; have := Nat.two_pow_pos k; omega
  | succ fuel ih =>
    intro k buf h
    cases k with
    | zero => simp [zPexExpGo]
    | succ k =>
      have h2 : 2 ^ (k+1) / 2 = 2 ^ k := by rw [pow_succ]; omega
      have h3 : 2 ^ (k+1) - 2 ^ k = 2 ^ k := by rw [pow_succ]; omega
      have hk : 2 ^ k ≤ fuel := by have := Nat.two_pow_pos k; rw [pow_succ] at h; omega
      unfold zPexExpGo
      rw [h2]
      simp only [h3]
      rw [ih k buf hk]
      have hne : 2 ^ (k+1) ≠ 1 := by rw [pow_succ]; omega
      rw [if_neg hne, if_neg hne]
      simp only [memcpyDown, lt_irrefl, decide_false, Bool.and_false, Bool.false_eq_true, if_false, Res.bind]
      simp only [ih k _ hk]

/-- **C23, partial** for a strictly conforming `memcpy`. -/
theorem zPexExp_pow2_partial (k : Nat) (factor : Nat → K) :
    ∃ p, zPexExp false (2 ^ k) factor = .ok p ∧ toPoly p = ∏ i ∈ range (2 ^ k), (X - C (factor i)) := by
  obtain ⟨p, b, e, h, -⟩ := zPexExpGo_spec (2 ^ k) (2 ^ k) factor (Nat.two_pow_pos k) (le_refl _)
  refine ⟨p, ?_, h⟩
  unfold zPexExp
  have := Nat.two_pow_pos k
  rw [if_neg (by omega), zPexExpGo_pow2 _ _ _ (le_refl _), e]; rfl

theorem zPexExpGo_not_pow2 : ∀ (fuel size : Nat) (buf : Nat → K), 0 < size → size ≤ fuel → (∀ k, size ≠ 2 ^ k) →
    zPexExpGo false fuel size buf = .ub := by
  intro fuel
  induction fuel with
  | zero => intro size buf h1 h2; omega
  | succ fuel ih =>
    intro size buf h1 h2 h3
    have hs1 : size ≠ 1 := h3 0
    unfold zPexExpGo
    rw [if_neg hs1]
    simp only
    by_cases hp : ∃ k, size / 2 = 2 ^ k
    · obtain ⟨k, hk⟩ := hp
      have hodd : size / 2 < size - size / 2 := by
        by_contra hc
        exact h3 (k+1) (by rw [pow_succ]; omega)
      obtain ⟨p, b, e, -, -⟩ := zPexExpGo_spec fuel (2 ^ k) buf (Nat.two_pow_pos k) (by omega)
      rw [hk, zPexExpGo_pow2 fuel k buf (by omega), e]
      rw [hk] at hodd
      simp [Res.bind, memcpyDown, hodd]
    · rw [ih (size/2) buf (by omega) (by omega) (fun k hk => hp ⟨k, hk⟩)]
      rfl

/-- **C23 is violated** by the letter of the C standard: unless the number of factors is a power of two, `memcpy` is called on
overlapping memory. -/
theorem zPexExp_overlap_ub (size : Nat) (hs : 0 < size) (h : ∀ k, size ≠ 2 ^ k) (factor : Nat → K) :
    zPexExp false size factor = .ub := by
  unfold zPexExp
  rw [if_neg (by omega), zPexExpGo_not_pow2 size size factor hs (le_refl _) h]; rfl

/-- The smallest instance: three factors. -/
theorem zPexExp_three_ub (factor : Nat → K) : zPexExp false 3 factor = .ub := by
  refine zPexExp_overlap_ub 3 (by omega) (fun k => ?_) factor
  match k with
  | 0 => decide
  | 1 => decide
  | k+2 => have := Nat.two_pow_pos k; rw [pow_add]; omega

/-- **C23, partial** for conjugate pairs: with `m ≥ 1` pairs stored at indices `0,1`, `2,3`, …, `_zPexExpIm` (upward-copying
`memcpy`) returns `∏ (x² - 2 Re(zᵢ) x + |zᵢ|²)` where `zᵢ` is the first member of the `i`-th pair. -/
theorem zPexExpIm_correct_partial : ∀ (fuel m : Nat) (buf : Nat → K × K), 0 < m → m ≤ fuel →
    ∃ p buf', zPexExpImGo true fuel (2 * m) buf = .ok (p, buf') ∧
      toPoly p = ∏ i ∈ range m, (X ^ 2 - C (2 * (buf (2*i)).1) * X + C ((buf (2*i)).1 * (buf (2*i)).1 + (buf (2*i)).2 * (buf (2*i)).2)) ∧
      ∀ i, 2 * m ≤ i → buf' i = buf i := by
  have hq : ∀ b c : K, X ^ 2 - C b * X + C c ≠ 0 := by
    intro b c h
    have := congrArg (fun q => q.coeff 2) h
    simp [coeff_X, coeff_C] at this
  intro fuel
  induction fuel with
  | zero => intro m buf h1 h2; omega
  | succ fuel ih =>
    intro m buf h1 h2
    unfold zPexExpImGo
    rw [show 2 * m / 2 = m by omega]
    by_cases hs : m = 1
    · subst hs
      rw [if_pos rfl]
      refine ⟨_, _, rfl, ?_, fun _ _ => rfl⟩
      simp [toPoly, poly, sum_range_succ]
      ring
    · rw [if_neg hs]
      simp only
      have eh : m / 2 * 2 = 2 * (m / 2) := by ring
      have eh2 : 2 * m - 2 * (m / 2) = 2 * (m - m / 2) := by omega
      rw [eh, eh2]
      obtain ⟨p1, b1, e1, hp1, hb1⟩ := ih (m/2) buf (by omega) (by omega)
      rw [e1]
      simp only [Res.bind, Bool.not_true, Bool.false_and, Bool.false_eq_true, if_false]
      obtain ⟨p2, b2, e2, hp2, hb2⟩ := ih (m - m/2) (fun i => if i < 2 * (m - m/2) then b1 (i + 2 * (m/2)) else b1 i) (by omega) (by omega)
      rw [e2]
      simp only
      have hp2' : toPoly p2 = ∏ i ∈ range (m - m/2), (X ^ 2 - C (2 * (buf (2*(m/2+i))).1) * X +
          C ((buf (2*(m/2+i))).1 * (buf (2*(m/2+i))).1 + (buf (2*(m/2+i))).2 * (buf (2*(m/2+i))).2)) := by
        rw [hp2]
        refine prod_congr rfl fun i hi => ?_
        rw [mem_range] at hi
        rw [if_pos (by omega), hb1 _ (by omega), show 2 * i + 2 * (m/2) = 2 * (m/2 + i) by ring]
      have ne1 : toPoly p1 ≠ 0 := by rw [hp1]; exact prod_ne_zero_iff.2 fun i _ => hq _ _
      have ne2 : toPoly p2 ≠ 0 := by rw [hp2']; exact prod_ne_zero_iff.2 fun i _ => hq _ _
      obtain ⟨r, er, hr, -⟩ := zPexMul_correct_partial p1 p2 ne1 ne2
      rw [er]
      refine ⟨r, b2, rfl, ?_, ?_⟩
      · rw [hr, hp1, hp2']
        have := prod_range_add (fun i => (X ^ 2 - C (2 * (buf (2*i)).1) * X + C ((buf (2*i)).1 * (buf (2*i)).1 + (buf (2*i)).2 * (buf (2*i)).2) : K[X])) (m/2) (m - m/2)
        rw [show m/2 + (m - m/2) = m by omega] at this
        exact this.symm
      · intro i hi
        rw [hb2 i (by omega), if_neg (by omega), hb1 i (by omega)]

/-! Non-vacuity: concrete polynomials meeting the hypotheses. -/

/-- `x² - 1` and `x - 1`, `x + 2`. -/
noncomputable def exP : Pex ℚ := { size := 3, c := fun i => if i = 0 then -1 else if i = 2 then 1 else 0 }
noncomputable def exF : Pex ℚ := { size := 2, c := fun i => if i = 0 then -1 else 1 }
noncomputable def exG : Pex ℚ := { size := 2, c := fun i => if i = 0 then 2 else 1 }

theorem exF_poly : toPoly exF = X - 1 := by
  simp [toPoly, poly, exF, sum_range_succ]; ring

theorem exP_poly : toPoly exP = X ^ 2 - 1 := by
  simp [toPoly, poly, exP, sum_range_succ]; ring

theorem exG_poly : toPoly exG = X - C (-2) := by
  simp [toPoly, poly, exG, sum_range_succ]; ring

/-- An exact division meets the hypotheses of `zPexDiv_exact_ub`, an inexact one those of `zPexDiv_correct_partial`. -/
example : zPexDiv exP exF = .ub :=
  zPexDiv_exact_ub exP exF (by simp [exF]) (by simp [exF, exP]) (by simp [exF])
    ⟨X + 1, by rw [exF_poly, exP_poly]; ring⟩
example : ∃ q r, zPexDiv exP exG = .ok (q, r) ∧ toPoly exP = toPoly q * toPoly exG + toPoly r := by
  obtain ⟨q, r, h1, h2, -⟩ := zPexDiv_correct_partial exP exG (by simp [exG]) (by simp [exG, exP]) (by simp [exG]) (by
    rw [exG_poly, exP_poly, dvd_iff_isRoot]; simp; norm_num)
  exact ⟨q, r, h1, h2⟩
example : toPoly exP + toPoly exF ≠ 0 := by
  rw [exP_poly, exF_poly]
  intro h
  have := congrArg (fun q => q.eval 2) h
  simp at this
  norm_num at this

end Zm.Pex
