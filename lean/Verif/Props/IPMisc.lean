import Verif.Props.IPLagrange
import Verif.Props.Pex
import Mathlib.Analysis.Calculus.Deriv.Pow
import Mathlib.Analysis.Calculus.Deriv.Mul
import Mathlib.Analysis.Calculus.Deriv.Add

/-! # Chebyshev creation (C79), polynomial boundary interpolation (C35), polynomial fitting (C80, C81), trapezoidal velocity
profile (C36), clothoid (C75) -/

set_option linter.unusedSectionVars false

namespace Zm.IP
open Zm Finset Polynomial

section
variable {K : Type*} [Field K] [LinearOrder K] [IsStrictOrderedRing K]

/-! ## Chebyshev -/

theorem cheb_degree (c : Nat → K) (n : Nat) : (∑ i ∈ range n, C (c i) * Polynomial.Chebyshev.T K i).degree < n := by
  refine lt_of_le_of_lt (degree_sum_le _ _) ?_
  rw [Finset.sup_lt_iff (by exact WithBot.bot_lt_coe n)]
  intro i hi
  rw [mem_range] at hi
  refine lt_of_le_of_lt (degree_mul_le _ _) ?_
  rw [Polynomial.Chebyshev.degree_T]
  have h1 : (C (c i)).degree ≤ 0 := degree_C_le
  have h2 : ((Int.natAbs (i:ℤ) : ℕ) : WithBot ℕ) < (n : WithBot ℕ) := by simpa using hi
  calc (C (c i)).degree + ((Int.natAbs (i:ℤ) : ℕ) : WithBot ℕ) ≤ 0 + ((Int.natAbs (i:ℤ) : ℕ) : WithBot ℕ) := by gcongr
    _ < n := by rw [zero_add]; exact h2

theorem cheb_indep (c : Nat → K) (n : Nat) (h : ∑ i ∈ range n, C (c i) * Polynomial.Chebyshev.T K i = 0) : ∀ i, i < n → c i = 0 := by
  induction n with
  | zero => intro i hi; omega
  | succ n ih =>
    have hn : c n = 0 := by
      have e := congrArg (fun p => p.coeff n) h
      simp only [sum_range_succ, coeff_add, coeff_zero, coeff_C_mul] at e
      rw [coeff_eq_zero_of_degree_lt (cheb_degree c n), zero_add] at e
      have hl : (Polynomial.Chebyshev.T K n).coeff n ≠ 0 := by
        have h1 := Polynomial.Chebyshev.leadingCoeff_T (R := K) n
        unfold leadingCoeff at h1
        have h2 : (Polynomial.Chebyshev.T K n).natDegree = n := natDegree_eq_of_degree_eq_some (by rw [Polynomial.Chebyshev.degree_T]; simp)
        rw [h2] at h1
        rw [h1]
        positivity
      rcases mul_eq_zero.mp e with h' | h'
      · exact h'
      · exact absurd h' hl
    intro i hi
    rcases Nat.lt_succ_iff_lt_or_eq.mp hi with h' | h'
    · refine ih ?_ i h'
      rw [sum_range_succ, hn] at h
      simpa using h
    · rw [h']; exact hn

/-- **C79.** With distinct knots (`T 0 ≠ T (n-1)` included), exact arithmetic and no pivot skipping, the Chebyshev interpolator
passes through every knot in every component. -/
theorem chebCreate_knot (n dim : Nat) (hn : 2 ≤ n) (T : Nat → K) (x : Nat → Nat → K)
    (hT : ∀ i j, i < n → j < n → T i = T j → i = j) (i : Nat) (hi : i < n) (k : Fin dim) :
    chebVec n T (fun j => chebCreate 0 n dim T x j k) (T i) = x i k := by
  rw [chebVec_spec n hn]
  unfold chebCreate
  rcases LE.zMulInvMatMat_correct n dim (fun i => chebRow n (chebScale (T i) (T 0) (T (n-1))) (fun _ => 0)) x (fun _ _ => 0) with ⟨v, e, hv⟩ | ⟨_, c, ⟨j, hj, hcj⟩, hc⟩
  · rw [e]
    have := hv i hi k
    rw [← this]
    refine sum_congr rfl fun a ha => ?_
    rw [chebRow_spec n _ _ a (mem_range.mp ha), mul_comm]
  · exfalso
    apply hcj
    refine cheb_indep c n ?_ j hj
    refine eq_zero_of_degree_lt_of_eval_index_eq_zero (s := range n) (v := fun i => chebScale (T i) (T 0) (T (n-1))) (f := _) ?_ ?_ ?_
    · intro a ha b hb hab
      have ha' : a < n := by simpa using ha
      have hb' : b < n := by simpa using hb
      apply hT a b ha' hb'
      have h0 : T (n-1) - T 0 ≠ 0 := by
        intro h
        have := hT (n-1) 0 (by omega) (by omega) (sub_eq_zero.mp h)
        omega
      simp only [chebScale] at hab
      field_simp at hab
      linarith
    · rw [card_range]; exact cheb_degree c n
    · intro a ha
      rw [eval_finsetSum]
      have := hc a (mem_range.mp ha)
      rw [← this]
      refine sum_congr rfl fun b hb => ?_
      beta_reduce
      rw [eval_mul, eval_C, chebRow_spec n _ _ b (mem_range.mp hb), mul_comm]; rfl

example : chebVec 3 (fun i => (i:ℚ)) (fun j => chebCreate 0 3 1 (fun i => (i:ℚ)) (fun i _ => (i:ℚ)^3) j 0) 2 = 8 := by
  have := chebCreate_knot 3 1 (by omega) (fun i => (i:ℚ)) (fun i _ => (i:ℚ)^3) (fun i j _ _ h => by exact_mod_cast h) 2 (by omega) 0
  norm_num at this ⊢
  exact this

/-! ## Polynomial interpolation between boundary conditions -/

/-- Effect of an assignment on a weighted sum of coefficients. -/
theorem sum_set1 (N : Nat) (w c : Nat → K) (i : Nat) (hi : i < N) (x : K) :
    ∑ j ∈ range N, w j * set1 c i x j = ∑ j ∈ range N, w j * c j + w i * (x - c i) := by
  have h : ∀ j ∈ range N, w j * set1 c i x j = w j * c j + if j = i then w i * (x - c i) else 0 := by
    intro j _
    by_cases h : j = i
    · subst h; rw [set1_same, if_pos rfl]; ring
    · rw [set1_ne _ _ h, if_neg h, add_zero]
  rw [sum_congr rfl h, sum_add_distrib, sum_ite_eq' (range N), if_pos (mem_range.mpr hi)]

theorem eval_poly_one (N : Nat) (c : Nat → K) : (Pex.poly N c).eval 1 = ∑ i ∈ range N, 1 * c i := by
  unfold Pex.poly; rw [eval_finsetSum]; simp

theorem eval_dpoly_one (N : Nat) (c : Nat → K) : (derivative (Pex.poly N c)).eval 1 = ∑ i ∈ range N, (i:K) * c i := by
  unfold Pex.poly; rw [derivative_sum, eval_finsetSum]
  refine sum_congr rfl fun i _ => ?_
  simp [derivative_X_pow]; ring

theorem eval_ddpoly_one (N : Nat) (c : Nat → K) : (derivative (derivative (Pex.poly N c))).eval 1 = ∑ i ∈ range N, ((i:K) * ((i:K)-1)) * c i := by
  unfold Pex.poly; rw [derivative_sum, derivative_sum, eval_finsetSum]
  refine sum_congr rfl fun i _ => ?_
  rcases i with _ | i
  · simp
  · simp [derivative_X_pow]; ring

/-- The coefficients computed by `zPexIPCreateBoundary` and their weighted sums. -/
theorem pexBoundary_spec (term x1 v1 a1 x2 v2 a2 : K) (h : term ≠ 0) (m : Nat) (v : Nat → K) :
    ∃ c, pexBoundary term x1 v1 a1 x2 v2 a2 m v = .ok c ∧ c 0 = x1 ∧ c 1 = v1 * term ∧ c 2 = 1/2*a1*(term*term) ∧
      (∀ i, i < m → c (i+3) = v i) ∧
      ∑ i ∈ range (m+6), 1 * c i = x2 ∧ ∑ i ∈ range (m+6), (i:K) * c i = v2 * term ∧
      ∑ i ∈ range (m+6), ((i:K)*((i:K)-1)) * c i = a2 * (term*term) := by
  unfold pexBoundary
  rw [if_neg h]
  simp only
  refine ⟨_, rfl, ?_⟩
  have key := forUp_inv (lo := 3) (hi := m+5-3+1) (fun i (c : Nat → K) =>
      let k1 := v (i-3)
      let c := set1 c i k1
      let c := set1 c (m+5) (c (m+5) + -(1/2)*(((m+5-1 : Nat):K)-i)*(((m+5-2 : Nat):K)-i)*k1)
      let c := set1 c (m+5-1) (c (m+5-1) + (((m+5:Nat):K)-i)*(((m+5-2:Nat):K)-i)*k1)
      set1 c (m+5-2) (c (m+5-2) + -(1/2)*(((m+5:Nat):K)-i)*(((m+5-1:Nat):K)-i)*k1))
    (set1 (set1 (set1 (set1 (set1 (set1 (fun _ => (0:K)) 0 x1) 1 (v1*term)) 2 (1/2*a1*(term*term)))
      (m+5-2) (1/2*(x2 - x1 - (v1 + 1/2*a1*term) * term)*((m+5:Nat):K)*((m+5-1:Nat):K) - ((v2 - v1 - a1*term) * term)*((m+5-1:Nat):K) + 1/2*((a2 - a1) * (term*term))))
      (m+5-1) (-(x2 - x1 - (v1 + 1/2*a1*term) * term)*((m+5:Nat):K)*((m+5-2:Nat):K) + ((v2 - v1 - a1*term) * term)*(2*((m+5:Nat):K)-3) - ((a2 - a1) * (term*term))))
      (m+5) (1/2*(x2 - x1 - (v1 + 1/2*a1*term) * term)*((m+5-1:Nat):K)*((m+5-2:Nat):K) - ((v2 - v1 - a1*term) * term)*((m+5-2:Nat):K) + 1/2*((a2 - a1) * (term*term))))
    (P := fun k c => c 0 = x1 ∧ c 1 = v1 * term ∧ c 2 = 1/2*a1*(term*term) ∧ (∀ i, i + 3 < k → c (i+3) = v i) ∧
      (∀ i, k ≤ i → i < m+3 → c i = 0) ∧
      ∑ i ∈ range (m+6), 1 * c i = x2 ∧ ∑ i ∈ range (m+6), (i:K) * c i = v2 * term ∧
      ∑ i ∈ range (m+6), ((i:K)*((i:K)-1)) * c i = a2 * (term*term))
    (by omega) ?_ ?_
  · obtain ⟨h0, h1, h2, h3, -, h4⟩ := key
    exact ⟨h0, h1, h2, fun i hi => h3 i (by omega), h4⟩
  · simp only [show m+5-2 = m+3 by omega, show m+5-1 = m+4 by omega]
    refine ⟨?_, ?_, ?_, ?_, ?_, ?_, ?_, ?_⟩
    · iterate 5 rw [set1_ne _ _ (by omega)]
      rw [set1_same]
    · iterate 4 rw [set1_ne _ _ (by omega)]
      rw [set1_same]
    · iterate 3 rw [set1_ne _ _ (by omega)]
      rw [set1_same]
    · intro i hi; omega
    · intro i h3 hi
      iterate 6 rw [set1_ne _ _ (by omega)]
    all_goals
      iterate 6 rw [sum_set1 _ _ _ _ (by omega)]
      rw [set1_ne (j := m+5) _ _ (by omega), set1_ne (j := m+5) _ _ (by omega), set1_ne (j := m+5) _ _ (by omega), set1_ne (j := m+5) _ _ (by omega), set1_ne (j := m+5) _ _ (by omega)]
      rw [set1_ne (j := m+4) _ _ (by omega), set1_ne (j := m+4) _ _ (by omega), set1_ne (j := m+4) _ _ (by omega), set1_ne (j := m+4) _ _ (by omega)]
      rw [set1_ne (j := m+3) _ _ (by omega), set1_ne (j := m+3) _ _ (by omega), set1_ne (j := m+3) _ _ (by omega)]
      rw [set1_ne (j := 2) _ _ (by omega), set1_ne (j := 2) _ _ (by omega), set1_ne (j := 1) _ _ (by omega)]
      push_cast
      simp only [mul_zero, sum_const_zero]
      ring
  · intro k c hk1 hk2 ⟨h0, h1, h2, h3, hz, s0, s1, s2⟩
    have hck := hz k (le_refl _) (by omega)
    have hk1' : k < m + 3 := by omega
    simp only [show m+5-2 = m+3 by omega, show m+5-1 = m+4 by omega]
    refine ⟨?_, ?_, ?_, ?_, ?_, ?_, ?_, ?_⟩
    · iterate 4 rw [set1_ne _ _ (by omega)]
      exact h0
    · iterate 4 rw [set1_ne _ _ (by omega)]
      exact h1
    · iterate 4 rw [set1_ne _ _ (by omega)]
      exact h2
    · intro i hi
      iterate 3 rw [set1_ne _ _ (by omega)]
      by_cases hik : i + 3 = k
      · rw [← hik, set1_same]; congr 1
      · rw [set1_ne _ _ hik]; exact h3 i (by omega)
    · intro i h3 hi
      iterate 4 rw [set1_ne _ _ (by omega)]
      exact hz i (by omega) hi
    all_goals
      iterate 4 rw [sum_set1 _ _ _ _ (by omega)]
      first | rw [s0] | rw [s1] | rw [s2]
      simp only [set1_ne _ _ (show m+5 ≠ k by omega), set1_ne _ _ (show m+4 ≠ k by omega), set1_ne _ _ (show m+3 ≠ k by omega),
        set1_ne _ _ (show m+4 ≠ m+5 by omega), set1_ne _ _ (show m+3 ≠ m+5 by omega), set1_ne _ _ (show m+3 ≠ m+4 by omega), hck]
      push_cast
      ring

/-- **C35.** `zPexIPCreateBoundary` rejects a zero term; otherwise the polynomial has `m+6` coefficients (degree `m+5`), meets the
boundary values, velocities and accelerations at both ends, and its free coefficients are the given ones. -/
theorem pexBoundary_correct (term x1 v1 a1 x2 v2 a2 : K) (h : term ≠ 0) (m : Nat) (v : Nat → K) :
    ∃ c, pexBoundary term x1 v1 a1 x2 v2 a2 m v = .ok c ∧ (∀ i, i < m → c (i+3) = v i) ∧
      pexIPVal (m+6) c term 0 = x1 ∧ pexIPVel (m+6) c term 0 = v1 ∧ pexIPAcc (m+6) c term 0 = a1 ∧
      pexIPVal (m+6) c term term = x2 ∧ pexIPVel (m+6) c term term = v2 ∧ pexIPAcc (m+6) c term term = a2 := by
  obtain ⟨c, e, h0, h1, h2, hv, s0, s1, s2⟩ := pexBoundary_spec term x1 v1 a1 x2 v2 a2 h m v
  refine ⟨c, e, hv, ?_⟩
  have hp : 0 < (Pex.Pex.mk (m+6) c).size := by simp
  unfold pexIPVal pexIPVel pexIPAcc
  rw [Pex.zPexVal_correct _ hp, Pex.zPexVal_correct _ hp, Pex.zPexDifVal_correct _ hp, Pex.zPexDifVal_correct _ hp,
    Pex.zPexDifVal_correct _ hp, Pex.zPexDifVal_correct _ hp, zero_div, div_self h]
  simp only [Function.iterate_succ, Function.iterate_zero, Function.comp, id, Pex.toPoly]
  rw [eval_poly_one, eval_dpoly_one, eval_ddpoly_one, s0, s1, s2]
  rw [← coeff_zero_eq_eval_zero, ← coeff_zero_eq_eval_zero, ← coeff_zero_eq_eval_zero, coeff_derivative, coeff_derivative, coeff_derivative,
    Pex.poly_coeff, Pex.poly_coeff, Pex.poly_coeff, if_pos (by omega), if_pos (by omega), if_pos (by omega), h0, h1, h2]
  refine ⟨rfl, ?_, ?_, rfl, ?_, ?_⟩ <;> push_cast <;> field_simp <;> ring

theorem pexBoundary_zero_term (x1 v1 a1 x2 v2 a2 : K) (m : Nat) (v : Nat → K) : pexBoundary 0 x1 v1 a1 x2 v2 a2 m v = .fail := by
  unfold pexBoundary; simp

example : ∃ c, pexBoundary (2:ℚ) 1 2 3 4 5 6 2 (fun i => i) = .ok c ∧ c 4 = 1 ∧ pexIPVel 8 c 2 2 = 5 := by
  obtain ⟨c, h, hv, -, -, -, -, h5, -⟩ := pexBoundary_correct (2:ℚ) 1 2 3 4 5 6 (by norm_num) 2 (fun i => i)
  exact ⟨c, h, by simpa using hv 1 (by omega), h5⟩

/-! ## Least-squares fit -/

/-- `pexLSM` builds the normal equations. -/
theorem pexLSM_spec (n m : Nat) (term : K) (t x : Nat → K) :
    (∀ j k, j < m → k < m → (pexLSM n m term t x).1 j k = ∑ i ∈ range n, (t i / term)^(j+k)) ∧
    (∀ j, j < m → (pexLSM n m term t x).2 j = ∑ i ∈ range n, x i * (t i / term)^j) := by
  unfold pexLSM
  simp only
  refine forUp_inv (lo := 0) (hi := n) _ _ (P := fun N (s : (Nat → Nat → K) × (Nat → K)) =>
    (∀ j k, j < m → k < m → s.1 j k = ∑ i ∈ range N, (t i / term)^(j+k)) ∧
    (∀ j, j < m → s.2 j = ∑ i ∈ range N, x i * (t i / term)^j)) (Nat.zero_le _) (by simp) ?_
  intro i s _ hi ⟨hA, hb⟩
  have h := forUp_inv (lo := 0) (hi := m) (fun j (s : (Nat → Nat → K) × (Nat → K)) =>
      ((forUp 0 m (fun k a => set2 a j k (a j k + (t i / term) ^ (j+k))) s.1), set1 s.2 j (s.2 j + x i * (t i / term) ^ j))) s
    (P := fun J (s' : (Nat → Nat → K) × (Nat → K)) =>
      (∀ j k, k < m → s'.1 j k = if j < J then s.1 j k + (t i / term)^(j+k) else s.1 j k) ∧
      (∀ j, s'.2 j = if j < J then s.2 j + x i * (t i / term)^j else s.2 j)) (Nat.zero_le _) (by simp) ?_
  · refine ⟨fun j k hj hk => ?_, fun j hj => ?_⟩
    · rw [h.1 j k hk, if_pos hj, sum_range_succ, hA j k hj hk]
    · rw [h.2 j, if_pos hj, sum_range_succ, hb j hj]
  · intro J s' _ hJ ⟨h1, h2⟩
    refine ⟨fun j k hk => ?_, fun j => ?_⟩
    · have hin := forUp_inv (lo := 0) (hi := m) (fun k a => set2 a J k (a J k + (t i / term) ^ (J+k))) s'.1
        (P := fun M a => ∀ j k, a j k = if j = J ∧ k < M then s'.1 j k + (t i / term)^(J+k) else s'.1 j k) (Nat.zero_le _) (by simp) ?_
      · show forUp 0 m (fun k a => set2 a J k (a J k + (t i / term) ^ (J + k))) s'.1 j k = _
        rw [hin j k]
        by_cases hjJ : j = J
        · subst hjJ
          rw [if_pos ⟨rfl, hk⟩, if_pos (by omega), h1 j k hk, if_neg (by omega)]
        · rw [if_neg (fun h => hjJ h.1), h1 j k hk]
          by_cases hlt : j < J
          · rw [if_pos hlt, if_pos (by omega)]
          · rw [if_neg hlt, if_neg (by omega)]
      · intro M a _ hM ih j k
        by_cases hjk : j = J ∧ k = M
        · obtain ⟨rfl, rfl⟩ := hjk
          rw [set2_same, ih, if_neg (by omega), if_pos (by omega)]
        · rw [set2_ne _ _ (by tauto), ih]
          by_cases h' : j = J ∧ k < M
          · rw [if_pos h', if_pos (by omega)]
          · rw [if_neg h', if_neg (by omega)]
    · simp only
      by_cases hjJ : j = J
      · subst hjJ; rw [set1_same, h2, if_neg (by omega), if_pos (by omega)]
      · rw [set1_ne _ _ hjJ, h2]
        by_cases hlt : j < J
        · rw [if_pos hlt, if_pos (by omega)]
        · rw [if_neg hlt, if_neg (by omega)]

/-- **C80.** With exact arithmetic and no pivot skipping, either the solver reports a singular matrix or the coefficients it returns
minimise the sum of squared residuals over all polynomials of the given dimension. -/
theorem pexLSM_optimal (n m : Nat) (hm : 0 < m) (term : K) (t x ans : Nat → K) :
    (∃ c, LE.zLESolveGauss 0 m (pexLSM n m term t x).1 (pexLSM n m term t x).2 ans = .ok c ∧
      ∀ d : Nat → K, ∑ i ∈ range n, (pexIPVal m c term (t i) - x i)^2 ≤ ∑ i ∈ range n, (pexIPVal m d term (t i) - x i)^2) ∨
    (LE.zLESolveGauss 0 m (pexLSM n m term t x).1 (pexLSM n m term t x).2 ans = .fail ∧ LE.Singular m (pexLSM n m term t x).1) := by
  obtain ⟨hA, hb⟩ := pexLSM_spec n m term t x
  rcases LE.zLESolveGauss_correct m (pexLSM n m term t x).1 (pexLSM n m term t x).2 ans with ⟨c, e, hc⟩ | h
  · left
    refine ⟨c, e, fun d => ?_⟩
    have hval : ∀ (c : Nat → K) (s : K), pexIPVal m c term s = ∑ j ∈ range m, c j * (s/term)^j := by
      intro c s
      unfold pexIPVal
      rw [Pex.zPexVal_correct _ (by exact hm)]
      unfold Pex.toPoly Pex.poly
      rw [eval_finsetSum]; simp
    -- normal equations: the residual is orthogonal to every power
    have hn : ∀ j, j < m → ∑ i ∈ range n, (pexIPVal m c term (t i) - x i) * (t i/term)^j = 0 := by
      intro j hj
      have h1 := hc j hj
      rw [hb j hj, sum_congr rfl (fun k hk => by rw [hA j k hj (mem_range.mp hk)])] at h1
      simp_rw [sub_mul, sum_sub_distrib]
      rw [sub_eq_zero, ← h1]
      simp_rw [hval, sum_mul]
      rw [sum_comm]
      refine sum_congr rfl fun k _ => sum_congr rfl fun i _ => ?_
      rw [pow_add]; ring
    have ho : ∑ i ∈ range n, (pexIPVal m c term (t i) - x i) * (pexIPVal m d term (t i) - pexIPVal m c term (t i)) = 0 := by
      have e2 : ∀ i, pexIPVal m d term (t i) - pexIPVal m c term (t i) = ∑ j ∈ range m, (d j - c j) * (t i/term)^j := by
        intro i; rw [hval, hval, ← sum_sub_distrib]; exact sum_congr rfl fun j _ => by ring
      simp_rw [e2, mul_sum]
      rw [sum_comm]
      refine sum_eq_zero fun j hj => ?_
      have := hn j (mem_range.mp hj)
      calc _ = (d j - c j) * ∑ i ∈ range n, (pexIPVal m c term (t i) - x i) * (t i/term)^j := by
            rw [mul_sum]; exact sum_congr rfl fun i _ => by ring
        _ = 0 := by rw [this, mul_zero]
    have hs : ∑ i ∈ range n, (pexIPVal m d term (t i) - x i)^2 = ∑ i ∈ range n, (pexIPVal m c term (t i) - x i)^2
        + 2 * ∑ i ∈ range n, (pexIPVal m c term (t i) - x i) * (pexIPVal m d term (t i) - pexIPVal m c term (t i))
        + ∑ i ∈ range n, (pexIPVal m d term (t i) - pexIPVal m c term (t i))^2 := by
      rw [mul_sum, ← sum_add_distrib, ← sum_add_distrib]
      exact sum_congr rfl fun i _ => by ring
    rw [hs, ho, mul_zero, add_zero]
    have : 0 ≤ ∑ i ∈ range n, (pexIPVal m d term (t i) - pexIPVal m c term (t i))^2 := sum_nonneg fun i _ => sq_nonneg _
    linarith
  · exact Or.inr h

/-- One point, one coefficient: the matrix is `(1)`, so the first alternative is reached. -/
example : ¬ LE.Singular 1 (pexLSM 1 1 (1:ℚ) (fun _ => 3) (fun _ => 5)).1 := by
  rintro ⟨z, ⟨j, hj, hz⟩, h⟩
  have := h 0 (by omega)
  rw [sum_range_one, (pexLSM_spec 1 1 (1:ℚ) _ _).1 0 0 (by omega) (by omega)] at this
  have hj0 : j = 0 := by omega
  subst hj0
  simp at this
  exact hz this

/-! ## Least-squares fit under boundary conditions -/

theorem set2_rowloop (lo m r : Nat) (a : Nat → Nat → K) (g : Nat → K) (i j : Nat) :
    forUp lo m (fun i a => set2 a r i (g i)) a i j = if i = r ∧ lo ≤ j ∧ j < m then g j else a i j := by
  rcases Nat.lt_or_ge m lo with h | h
  · rw [forUp_of_le h.le, if_neg (by omega)]
  refine forUp_inv (lo := lo) (hi := m) _ a (P := fun M b => b i j = if i = r ∧ lo ≤ j ∧ j < M then g j else a i j) h ?_ ?_
  · rw [if_neg (by omega)]
  · intro M b h1 h2 ih
    by_cases hij : i = r ∧ j = M
    · obtain ⟨rfl, rfl⟩ := hij
      rw [set2_same, if_pos ⟨rfl, h1, by omega⟩]
    · rw [set2_ne _ _ (by tauto), ih]
      by_cases h' : i = r ∧ lo ≤ j ∧ j < M
      · rw [if_pos h', if_pos ⟨h'.1, h'.2.1, by omega⟩]
      · rw [if_neg h', if_neg (by omega)]

theorem bLSM_rows (n m : Nat) (term : K) (t x : Nat → K) (r : Nat) (hr : r < 3 ∨ m ≤ r + 3) (k : Nat) :
    (forUp 0 n (fun i (s : (Nat → Nat → K) × (Nat → K)) =>
      forUp 3 (m-3) (fun j (s : (Nat → Nat → K) × (Nat → K)) =>
      ((forUp 0 m (fun k a => set2 a j k (a j k + (t i / term) ^ (j+k))) s.1), set1 s.2 j (s.2 j + x i * (t i / term) ^ j))) s)
      ((fun _ _ => 0 : Nat → Nat → K), (fun _ => 0 : Nat → K))).1 r k = 0 := by
  refine forUp_inv (lo := 0) (hi := n) _ _ (P := fun _ (s : (Nat → Nat → K) × (Nat → K)) => s.1 r k = 0) (Nat.zero_le _) rfl ?_
  intro i s _ _ hs
  rcases Nat.lt_or_ge (m-3) 3 with h | h
  · rw [forUp_of_le h.le]; exact hs
  refine forUp_inv (lo := 3) (hi := m-3) _ s (P := fun _ (s : (Nat → Nat → K) × (Nat → K)) => s.1 r k = 0) h hs ?_
  intro j s' h1 h2 hs'
  simp only
  refine forUp_inv (lo := 0) (hi := m) _ s'.1 (P := fun _ (a : Nat → Nat → K) => a r k = 0) (Nat.zero_le _) hs' ?_
  intro l a _ _ ha
  rw [set2_ne _ _ (by omega)]; exact ha

/-- **C81.** Any exact solution of the equation built by `zPexIPCreateBounderyLSM` for at least six coefficients meets the initial
value, velocity and acceleration and the terminal value, but its terminal velocity is `v2 / term` and its terminal
acceleration `a2 / term²`: the terminal conditions are met only for a unit term (or vanishing conditions). -/
theorem pexBoundaryLSM_partial (n m : Nat) (hm : 6 ≤ m) (term x1 v1 a1 x2 v2 a2 : K) (h : term ≠ 0) (t x c : Nat → K)
    (hc : ∀ i, i < m → ∑ j ∈ range m, (pexBoundaryLSM n m term x1 v1 a1 x2 v2 a2 t x).1 i j * c j = (pexBoundaryLSM n m term x1 v1 a1 x2 v2 a2 t x).2 i) :
    pexIPVal m c term 0 = x1 ∧ pexIPVel m c term 0 = v1 ∧ pexIPAcc m c term 0 = a1 ∧
      pexIPVal m c term term = x2 ∧ pexIPVel m c term term = v2 / term ∧ pexIPAcc m c term term = a2 / (term*term) := by
  have hp : 0 < (Pex.Pex.mk m c).size := by show 0 < m; omega
  unfold pexBoundaryLSM at hc
  simp only at hc
  have hz : ∀ r k, (r < 3 ∨ m ≤ r + 3) → _ := fun r k hr => bLSM_rows n m term t x r hr k
  generalize (forUp 0 n (fun i (s : (Nat → Nat → K) × (Nat → K)) =>
      forUp 3 (m-3) (fun j (s : (Nat → Nat → K) × (Nat → K)) =>
      ((forUp 0 m (fun k a => set2 a j k (a j k + (t i / term) ^ (j+k))) s.1), set1 s.2 j (s.2 j + x i * (t i / term) ^ j))) s)
      ((fun _ _ => 0 : Nat → Nat → K), (fun _ => 0 : Nat → K))) = S at hc hz
  have q0 : c 0 = x1 := by
    have := hc 0 (by omega)
    simp only [set2_rowloop] at this
    rw [sum_eq_single 0] at this
    · simp [show 0 ≠ m - 1 by omega, show 0 ≠ m - 2 by omega, show 0 ≠ m - 3 by omega, set1, set2] at this
      exact this
    · intro b _ hb
      simp [show 0 ≠ m - 1 by omega, show 0 ≠ m - 2 by omega, show 0 ≠ m - 3 by omega, set2, hb, hz 0 b (by omega)]
    · simp; omega
  have q1 : c 1 = v1 * term := by
    have := hc 1 (by omega)
    simp only [set2_rowloop] at this
    rw [sum_eq_single 1] at this
    · simp [show 1 ≠ m - 1 by omega, show 1 ≠ m - 2 by omega, show 1 ≠ m - 3 by omega, set1, set2] at this
      rw [← this]; field_simp
    · intro b _ hb
      simp [show 1 ≠ m - 1 by omega, show 1 ≠ m - 2 by omega, show 1 ≠ m - 3 by omega, set2, hb, hz 1 b (by omega)]
    · simp; omega
  have q2 : c 2 = a1 * (term*term) / 2 := by
    have := hc 2 (by omega)
    simp only [set2_rowloop] at this
    rw [sum_eq_single 2] at this
    · simp [show 2 ≠ m - 1 by omega, show 2 ≠ m - 2 by omega, show 2 ≠ m - 3 by omega, set1, set2] at this
      rw [← this]; field_simp
    · intro b _ hb
      simp [show 2 ≠ m - 1 by omega, show 2 ≠ m - 2 by omega, show 2 ≠ m - 3 by omega, set2, hb, hz 2 b (by omega)]
    · simp; omega
  have q3 : ∑ j ∈ range m, 1 * c j = x2 := by
    have := hc (m-3) (by omega)
    simp only [set2_rowloop] at this
    rw [sum_congr rfl (g := fun j : Nat => 1 * c j)] at this
    · rw [this]
      rw [set1_ne _ _ (by omega), set1_ne _ _ (by omega), set1_same]
    · intro j hj
      rw [mem_range] at hj
      rw [if_neg (by omega), if_neg (by omega), if_pos ⟨trivial, by omega, by omega⟩]
  have q4 : ∑ j ∈ range m, (j:K) * c j = v2 := by
    have := hc (m-2) (by omega)
    simp only [set2_rowloop] at this
    rw [sum_congr rfl (g := fun j : Nat => (j:K) * c j)] at this
    · rw [this]
      rw [set1_ne _ _ (by omega), set1_same]
    · intro j hj
      rw [mem_range] at hj
      rw [if_neg (by omega)]
      by_cases hj0 : 1 ≤ j
      · rw [if_pos ⟨trivial, hj0, hj⟩]
      · have : j = 0 := by omega
        subst this
        rw [if_neg (by omega), if_neg (by omega), set2_ne _ _ (by omega), set2_ne _ _ (by omega), set2_ne _ _ (by omega), hz (m-2) 0 (by omega)]
        simp
  have q5 : ∑ j ∈ range m, ((j:K) * ((j:K)-1)) * c j = a2 := by
    have := hc (m-1) (by omega)
    simp only [set2_rowloop] at this
    rw [sum_congr rfl (g := fun j : Nat => ((j:K)*((j:K)-1)) * c j)] at this
    · rw [this]
      rw [set1_same]
    · intro j hj
      rw [mem_range] at hj
      by_cases hj0 : 2 ≤ j
      · rw [if_pos ⟨trivial, hj0, hj⟩]
      · rw [if_neg (by omega), if_neg (by omega), if_neg (by omega), set2_ne _ _ (by omega), set2_ne _ _ (by omega), set2_ne _ _ (by omega), hz (m-1) j (by omega)]
        have : j = 0 ∨ j = 1 := by omega
        rcases this with rfl | rfl <;> simp
  unfold pexIPVal pexIPVel pexIPAcc
  rw [Pex.zPexVal_correct _ hp, Pex.zPexVal_correct _ hp, Pex.zPexDifVal_correct _ hp, Pex.zPexDifVal_correct _ hp,
    Pex.zPexDifVal_correct _ hp, Pex.zPexDifVal_correct _ hp, zero_div, div_self h]
  simp only [Function.iterate_succ, Function.iterate_zero, Function.comp, id, Pex.toPoly]
  rw [eval_poly_one, eval_dpoly_one, eval_ddpoly_one, q3, q4, q5]
  rw [← coeff_zero_eq_eval_zero, ← coeff_zero_eq_eval_zero, ← coeff_zero_eq_eval_zero, coeff_derivative, coeff_derivative, coeff_derivative,
    Pex.poly_coeff, Pex.poly_coeff, Pex.poly_coeff, if_pos (by omega), if_pos (by omega), if_pos (by omega), q0, q1, q2]
  refine ⟨rfl, ?_, ?_, rfl, rfl, rfl⟩ <;> push_cast <;> field_simp <;> ring

/-- **C81, violated.** With no points, six coefficients, term 2 and a requested terminal velocity of 1, the exact solution of the
equation exists and has terminal velocity 1/2. -/
theorem pexBoundaryLSM_violated : ∃ c : Nat → ℚ,
    (∀ i, i < 6 → ∑ j ∈ range 6, (pexBoundaryLSM 0 6 (2:ℚ) 0 0 0 0 1 0 (fun _ => 0) (fun _ => 0)).1 i j * c j = (pexBoundaryLSM 0 6 (2:ℚ) 0 0 0 0 1 0 (fun _ => 0) (fun _ => 0)).2 i) ∧
    pexIPVel 6 c 2 2 = 1/2 := by
  have hc : ∀ i, i < 6 → ∑ j ∈ range 6, (pexBoundaryLSM 0 6 (2:ℚ) 0 0 0 0 1 0 (fun _ => 0) (fun _ => 0)).1 i j * (fun j : Nat => if j = 3 then (-4:ℚ) else if j = 4 then 7 else if j = 5 then -3 else 0) j = (pexBoundaryLSM 0 6 (2:ℚ) 0 0 0 0 1 0 (fun _ => 0) (fun _ => 0)).2 i := by
    intro i hi
    unfold pexBoundaryLSM
    simp only [set2_rowloop]
    rw [forUp_of_le (le_refl _)]
    interval_cases i <;> norm_num [sum_range_succ, set1, set2]
  exact ⟨_, hc, (pexBoundaryLSM_partial 0 6 (by omega) (2:ℚ) 0 0 0 0 1 0 (by norm_num) _ _ _ hc).2.2.2.2.1⟩

end

/-! ## Trapezoidal velocity profile -/

section
open Classical

theorem trvel_vm_sq {v0 vT acc dist : ℝ} (hacc : 0 < acc) (hd : 0 ≤ dist) :
    Real.sqrt (1/2 * (v0*v0 + vT*vT + 2*acc*dist))^2 = 1/2 * (v0*v0 + vT*vT + 2*acc*dist) :=
  Real.sq_sqrt (by nlinarith [mul_self_nonneg v0, mul_self_nonneg vT, mul_nonneg hacc.le hd])

/-- The facts about a created profile that the theorems below use: `vp` is the velocity reached at `t1`. -/
theorem trvel_facts (v0 vT vmax acc dist : ℝ) (p : TRVel) (hp : zTRVelProfCreate v0 vT vmax acc dist = .ok p)
    (hf0 : 0 < v0 → v0^2 - vT^2 ≤ 2*acc*dist) (hfT : 0 < vT → vT^2 - v0^2 ≤ 2*acc*dist) :
    0 < acc ∧ 0 < vmax ∧ v0 ≤ vmax ∧ vT ≤ vmax ∧ p.v0 = v0 ∧ p.vT = vT ∧ p.vmax = vmax ∧ p.acc = acc ∧ p.dist = dist ∧
      ∃ vp, vp ≤ vmax ∧ v0 ≤ vp ∧ vT ≤ vp ∧ p.t1 = (vp - v0)/acc ∧ p.t1 ≤ p.t2 ∧ p.t = p.t2 + (vp - vT)/acc ∧
        (p.t1 < p.t2 → vp = vmax) ∧ 2*acc*dist = 2*vp^2 - v0^2 - vT^2 + 2*acc*vp*(p.t2 - p.t1) := by
  unfold zTRVelProfCreate at hp
  split at hp
  · exact absurd hp (by simp)
  split at hp
  · exact absurd hp (by simp)
  split at hp
  · exact absurd hp (by simp)
  split at hp
  · exact absurd hp (by simp)
  split at hp
  · exact absurd hp (by simp)
  rename_i h1 h2 h3 h4 h5
  push Not at h1 h2 h3 h4 h5
  simp only at hp
  split at hp
  · rename_i h6
    simp only [Res.ok.injEq] at hp
    subst hp
    refine ⟨h5, h2, h3, h4, rfl, rfl, rfl, rfl, rfl, vmax, le_refl _, h3, h4, rfl, ?_, rfl, fun _ => rfl, ?_⟩
    · simp only
      have : 0 ≤ (dist - (v0 + 1 / 2 * acc * ((vmax - v0) / acc)) * ((vmax - v0) / acc) - (vT + 1 / 2 * acc * ((vmax - vT) / acc)) * ((vmax - vT) / acc)) / vmax :=
        div_nonneg (by linarith) h2.le
      linarith
    · simp only
      have := h5.ne'
      have := h2.ne'
      field_simp
      ring
  · rename_i h6
    simp only [Res.ok.injEq] at hp
    subst hp
    have hsq := trvel_vm_sq (v0 := v0) (vT := vT) h5 h1
    have hs0 := Real.sqrt_nonneg (1/2 * (v0*v0 + vT*vT + 2*acc*dist))
    refine ⟨h5, h2, h3, h4, rfl, rfl, rfl, rfl, rfl, Real.sqrt (1/2 * (v0*v0 + vT*vT + 2*acc*dist)), ?_, ?_, ?_, rfl, le_refl _, rfl, fun h => absurd h (lt_irrefl _), ?_⟩
    · push Not at h6
      have e : (v0 + 1 / 2 * acc * ((vmax - v0) / acc)) * ((vmax - v0) / acc) + (vT + 1 / 2 * acc * ((vmax - vT) / acc)) * ((vmax - vT) / acc)
          = (2*vmax^2 - v0^2 - vT^2) / (2*acc) := by
        have := h5.ne'
        field_simp
        ring
      rw [e, le_div_iff₀ (by linarith)] at h6
      refine abs_le_of_sq_le_sq' ?_ h2.le |>.2
      rw [hsq]; linarith
    · by_cases hv : 0 < v0
      · refine (abs_le_of_sq_le_sq' ?_ hs0).2
        rw [hsq]
        have := hf0 hv
        nlinarith
      · linarith
    · by_cases hv : 0 < vT
      · refine (abs_le_of_sq_le_sq' ?_ hs0).2
        rw [hsq]
        have := hfT hv
        nlinarith
      · linarith
    · simp only; rw [hsq]; ring

/-- **C36.** If the distance is feasible (long enough to change the velocity from `v0` to `vT` within the acceleration limit), the
created profile has ordered switching times, starts at distance 0 with `v0`, ends at the requested distance with `vT`, never
exceeds `vmax`, is never slower than the slower of its two end velocities, and accelerates by at most `acc`. -/
theorem trvel_partial (v0 vT vmax acc dist : ℝ) (p : TRVel) (hp : zTRVelProfCreate v0 vT vmax acc dist = .ok p)
    (hf0 : 0 < v0 → v0^2 - vT^2 ≤ 2*acc*dist) (hfT : 0 < vT → vT^2 - v0^2 ≤ 2*acc*dist) :
    0 ≤ p.t1 ∧ p.t1 ≤ p.t2 ∧ p.t2 ≤ p.t ∧ zTRVelProfDist p 0 = 0 ∧ zTRVelProfVel p 0 = v0 ∧
      zTRVelProfDist p p.t = dist ∧ zTRVelProfVel p p.t = vT ∧
      (∀ t, 0 ≤ t → t ≤ p.t → min v0 vT ≤ zTRVelProfVel p t ∧ zTRVelProfVel p t ≤ vmax) ∧ (∀ t, |zTRVelProfAcc p t| ≤ acc) := by
  obtain ⟨ha, hm, h0, hT, e1, e2, e3, e4, e5, vp, g1, g2, g3, g4, g5, g6, g7, g8⟩ := trvel_facts v0 vT vmax acc dist p hp hf0 hfT
  have hane := ha.ne'
  have t1 : 0 ≤ p.t1 := by rw [g4]; exact div_nonneg (by linarith) ha.le
  have t3 : 0 ≤ (vp - vT)/acc := div_nonneg (by linarith) ha.le
  have k1 : acc * p.t1 = vp - v0 := by rw [g4]; field_simp
  have k3 : acc * (p.t - p.t2) = vp - vT := by rw [g6]; field_simp; ring
  refine ⟨t1, g5, by rw [g6]; linarith, ?_, ?_, ?_, ?_, ?_, ?_⟩
  · unfold zTRVelProfDist
    rw [e1, e2, e3, e4, e5]
    by_cases h : (0:ℝ) < p.t1
    · rw [if_pos h]; ring
    · have h' : p.t1 = 0 := le_antisymm (not_lt.mp h) t1
      rw [if_neg h]
      simp only
      by_cases h2 : (0:ℝ) < p.t2
      · rw [if_pos h2, h']; ring
      · have h2' : p.t2 = 0 := le_antisymm (not_lt.mp h2) (by linarith)
        rw [if_neg h2]
        rw [h', mul_zero] at k1
        rw [h2', sub_zero] at k3
        rw [h', h2'] at g8
        have hv : vp = v0 := by linarith
        subst hv
        have : dist = (vT + 1/2 * acc * p.t) * p.t := by
          have e : acc * dist = acc * ((vT + 1/2 * acc * p.t) * p.t) := by
            have : acc * ((vT + 1/2 * acc * p.t) * p.t) = vT * (acc * p.t) + 1/2 * (acc*p.t)*(acc*p.t) := by ring
            rw [this, k3]; linarith
          exact mul_left_cancel₀ hane e
        rw [this]; ring
  · unfold zTRVelProfVel
    rw [e1, e2, e3, e4]
    by_cases h : (0:ℝ) < p.t1
    · rw [if_pos h]; ring
    · have h' : p.t1 = 0 := le_antisymm (not_lt.mp h) t1
      rw [if_neg h]
      rw [h', mul_zero] at k1
      by_cases h2 : (0:ℝ) < p.t2
      · rw [if_pos h2, ← g7 (by linarith)]; linarith
      · have h2' : p.t2 = 0 := le_antisymm (not_lt.mp h2) (by linarith)
        rw [if_neg h2]
        rw [h'] at *
        rw [h2'] at k3
        linarith
  · unfold zTRVelProfDist
    rw [e1, e2, e3, e4, e5, if_neg (by rw [g6]; linarith)]
    simp only
    rw [if_neg (by rw [g6]; linarith)]
    ring
  · unfold zTRVelProfVel
    rw [if_neg (by rw [g6]; linarith), if_neg (by rw [g6]; linarith), e2]; ring
  · intro t ht0 ht
    unfold zTRVelProfVel
    rw [e1, e2, e3, e4]
    split
    · rename_i h
      have b1 : 0 ≤ acc * t := mul_nonneg ha.le ht0
      have b2 : acc * t ≤ acc * p.t1 := mul_le_mul_of_nonneg_left h.le ha.le
      exact ⟨(min_le_left _ _).trans (by linarith), by linarith⟩
    · split
      · exact ⟨(min_le_left _ _).trans h0, le_refl _⟩
      · rename_i h h'
        have b1 : 0 ≤ acc * (p.t - t) := mul_nonneg ha.le (by linarith)
        have b2 : acc * (p.t - t) ≤ acc * (p.t - p.t2) := mul_le_mul_of_nonneg_left (by linarith) ha.le
        exact ⟨(min_le_right _ _).trans (by linarith), by linarith⟩
  · intro t
    unfold zTRVelProfAcc
    rw [e4]
    split
    · rw [abs_of_pos ha]
    · split
      · simpa using ha.le
      · rw [abs_neg, abs_of_pos ha]

/-- **C36.** Under the same condition the velocity is the derivative of the distance at every time, so both are continuous. -/
theorem trvel_hasDerivAt (v0 vT vmax acc dist : ℝ) (p : TRVel) (hp : zTRVelProfCreate v0 vT vmax acc dist = .ok p)
    (hf0 : 0 < v0 → v0^2 - vT^2 ≤ 2*acc*dist) (hfT : 0 < vT → vT^2 - v0^2 ≤ 2*acc*dist) (t : ℝ) :
    HasDerivAt (zTRVelProfDist p) (zTRVelProfVel p t) t ∧ ContinuousAt (zTRVelProfVel p) t := by
  obtain ⟨ha, hm, h0, hT, e1, e2, e3, e4, e5, vp, g1, g2, g3, g4, g5, g6, g7, g8⟩ := trvel_facts v0 vT vmax acc dist p hp hf0 hfT
  have hane := ha.ne'
  have k1 : acc * p.t1 = vp - v0 := by rw [g4]; field_simp
  have k3 : acc * (p.t - p.t2) = vp - vT := by rw [g6]; field_simp; ring
  set A : ℝ → ℝ := fun t => (v0 + 1/2*acc*t)*t with hA
  set B : ℝ → ℝ := fun t => (v0 + 1/2*acc*p.t1)*p.t1 + vmax*(t - p.t1) with hB
  set C' : ℝ → ℝ := fun t => dist - (vT + 1/2*acc*(p.t - t))*(p.t - t) with hC
  have dA : ∀ t, HasDerivAt A (v0 + acc*t) t := by
    intro t
    have := (((hasDerivAt_id t).const_mul (1/2*acc)).const_add v0).mul (hasDerivAt_id t)
    refine this.congr_deriv ?_
    simp; ring
  have dB : ∀ t, HasDerivAt B vmax t := by
    intro t
    have := (((hasDerivAt_id t).sub_const p.t1).const_mul vmax).const_add ((v0 + 1/2*acc*p.t1)*p.t1)
    exact this.congr_deriv (by simp)
  have dC : ∀ t, HasDerivAt C' (vT + acc*(p.t - t)) t := by
    intro t
    have h1 := (hasDerivAt_id t).const_sub p.t
    have := (((h1.const_mul (1/2*acc)).const_add vT).mul h1).const_sub dist
    refine this.congr_deriv ?_
    simp; ring
  have hD : zTRVelProfDist p = fun t => if t < p.t1 then A t else if t < p.t2 then B t else C' t := by
    funext t; unfold zTRVelProfDist; rw [e1, e2, e3, e4, e5]
  have hV : zTRVelProfVel p = fun t => if t < p.t1 then v0 + acc*t else if t < p.t2 then vmax else vT + acc*(p.t - t) := by
    funext t; unfold zTRVelProfVel; rw [e1, e2, e3, e4]
  -- values agree at the switching times
  have hd : acc * dist = acc * (C' p.t2) + (vT * (vp - vT) + 1/2*(vp - vT)*(vp-vT)) := by
    have : acc * (C' p.t2) = acc * dist - (vT * (acc*(p.t - p.t2)) + 1/2*(acc*(p.t-p.t2))*(acc*(p.t-p.t2))) := by simp only [hC]; ring
    rw [this, k3]; ring
  have hAt : acc * A p.t1 = v0 * (vp - v0) + 1/2 * (vp - v0)*(vp - v0) := by
    have : acc * A p.t1 = v0 * (acc*p.t1) + 1/2*(acc*p.t1)*(acc*p.t1) := by simp only [hA]; ring
    rw [this, k1]
  have hBC : p.t1 < p.t2 → B p.t2 = C' p.t2 := by
    intro h
    have hv := g7 h
    apply mul_left_cancel₀ hane
    have : acc * B p.t2 = acc * A p.t1 + acc * vmax * (p.t2 - p.t1) := by simp only [hA, hB]; ring
    rw [this, hAt, ← hv]
    linear_combination hd - (1/2) * g8
  have hAC : p.t1 = p.t2 → A p.t1 = C' p.t1 := by
    intro h
    apply mul_left_cancel₀ hane
    rw [hAt]
    rw [← h] at hd g8
    linear_combination hd - (1/2) * g8
  have hAB : A p.t1 = B p.t1 := by simp only [hA, hB]; ring
  have cont_glue : ∀ (f g : ℝ → ℝ) (a : ℝ), Continuous f → Continuous g → f a = g a → Continuous (fun t => if t < a then f t else g t) := by
    intro f g a hf hg hab
    refine Continuous.if_le hg hf continuous_const continuous_id (fun t ht => by rw [show t = a from ht.symm, hab]) |>.congr ?_
    intro t
    by_cases h : t < a
    · rw [if_pos h, if_neg (by simpa using h)]
    · rw [if_neg h, if_pos (by simpa using h)]
  have der_glue : ∀ (f g : ℝ → ℝ) (f' g' : ℝ → ℝ) (a : ℝ), (∀ t, HasDerivAt f (f' t) t) → (∀ t, HasDerivAt g (g' t) t) → f a = g a → f' a = g' a →
      ∀ t, HasDerivAt (fun t => if t < a then f t else g t) (if t < a then f' t else g' t) t := by
    intro f g f' g' a hf hg hab hab' t
    rcases lt_trichotomy t a with h | h | h
    · rw [if_pos h]
      refine (hf t).congr_of_eventuallyEq ?_
      filter_upwards [Iio_mem_nhds h] with s hs
      exact if_pos hs
    · subst h
      rw [if_neg (lt_irrefl _)]
      have hl : HasDerivWithinAt (fun s => if s < t then f s else g s) (g' t) (Set.Iic t) t := by
        rw [← hab']
        refine (hf t).hasDerivWithinAt.congr (fun s hs => ?_) ?_
        · rcases lt_or_eq_of_le (Set.mem_Iic.mp hs) with h | h
          · rw [if_pos h]
          · rw [h, if_neg (lt_irrefl _), hab]
        · rw [if_neg (lt_irrefl _), hab]
      have hr : HasDerivWithinAt (fun s => if s < t then f s else g s) (g' t) (Set.Ici t) t := by
        refine (hg t).hasDerivWithinAt.congr (fun s hs => ?_) ?_
        · rw [if_neg (not_lt.mpr hs)]
        · rw [if_neg (lt_irrefl _)]
      have := hl.union hr
      rw [Set.Iic_union_Ici] at this
      exact this.hasDerivAt Filter.univ_mem
    · rw [if_neg (not_lt.mpr h.le)]
      refine (hg t).congr_of_eventuallyEq ?_
      filter_upwards [Ioi_mem_nhds h] with s hs
      rw [if_neg (not_lt.mpr (le_of_lt hs))]
  rcases lt_or_eq_of_le g5 with h12 | h12
  · have hv := g7 h12
    have d2 := der_glue B C' (fun _ => vmax) (fun t => vT + acc*(p.t - t)) p.t2 dB dC (hBC h12) (by linarith)
    constructor
    · rw [hD, hV]
      exact der_glue A _ _ _ p.t1 dA d2 (by rw [if_pos h12]; exact hAB) (by rw [if_pos h12]; linarith) t
    · rw [hV]
      refine (cont_glue _ _ _ (by fun_prop) (cont_glue _ _ _ continuous_const (by fun_prop) (by linarith)) (by rw [if_pos h12]; linarith)).continuousAt
  · have hD' : zTRVelProfDist p = fun t => if t < p.t1 then A t else C' t := by
      rw [hD]; funext t; rw [← h12]; by_cases h : t < p.t1 <;> simp [h]
    have hV' : zTRVelProfVel p = fun t => if t < p.t1 then v0 + acc*t else vT + acc*(p.t - t) := by
      rw [hV]; funext t; rw [← h12]; by_cases h : t < p.t1 <;> simp [h]
    rw [← h12] at k3
    constructor
    · rw [hD', hV']
      exact der_glue A C' _ _ p.t1 dA dC (hAC h12) (by linarith) t
    · rw [hV']
      exact (cont_glue _ _ _ (by fun_prop) (by fun_prop) (by linarith)).continuousAt

/-- **C36, violated.** Whenever the distance is too short to brake from `v0` to `vT`, the profile is created nevertheless and its
initial velocity is not `v0`. -/
theorem trvel_short_violated (v0 vT vmax acc dist : ℝ) (hd : 0 ≤ dist) (ha : 0 < acc) (h0 : 0 < v0) (hv : v0 ≤ vmax) (hvT : vT ≤ vmax)
    (hshort : 2*acc*dist < v0^2 - vT^2) :
    ∃ p, zTRVelProfCreate v0 vT vmax acc dist = .ok p ∧ p.t1 < 0 ∧ zTRVelProfVel p 0 ≠ v0 := by
  have hm : 0 < vmax := by linarith
  have e : (v0 + 1 / 2 * acc * ((vmax - v0) / acc)) * ((vmax - v0) / acc) + (vT + 1 / 2 * acc * ((vmax - vT) / acc)) * ((vmax - vT) / acc)
      = (2*vmax^2 - v0^2 - vT^2) / (2*acc) := by
    have := ha.ne'
    field_simp
    ring
  unfold zTRVelProfCreate
  rw [if_neg (by linarith), if_neg (by linarith), if_neg (by linarith), if_neg (by linarith), if_neg (by linarith)]
  simp only
  rw [if_neg]
  · have hsq := trvel_vm_sq (v0 := v0) (vT := vT) ha hd
    have hlt : Real.sqrt (1/2 * (v0*v0 + vT*vT + 2*acc*dist)) < v0 := by
      refine lt_of_pow_lt_pow_left₀ 2 h0.le ?_
      rw [hsq]; nlinarith
    have ht1 : (Real.sqrt (1/2 * (v0*v0 + vT*vT + 2*acc*dist)) - v0) / acc < 0 := div_neg_of_neg_of_pos (by linarith) ha
    refine ⟨_, rfl, ht1, ?_⟩
    unfold zTRVelProfVel
    rw [if_neg (by simpa using ht1.le), if_neg (by simpa using ht1.le)]
    simp only
    have hane := ha.ne'
    generalize Real.sqrt (1/2 * (v0*v0 + vT*vT + 2*acc*dist)) = vm at hlt
    intro h
    field_simp at h
    linarith
  · rw [e, not_lt, le_div_iff₀ (by linarith)]
    nlinarith

/-- **C36, violated.** A reverse velocity beyond the limit is accepted. -/
theorem trvel_reverse_violated : ∃ p, zTRVelProfCreate (-3) 0 1 1 10 = .ok p ∧ |zTRVelProfVel p 0| > 1 := by
  refine ⟨⟨-3, 0, 1, 1, 10, 4 + (10 - (-3 + 1/2*1*4)*4 - 1/2) + 1, 4, 4 + (10 - (-3 + 1/2*1*4)*4 - 1/2)⟩, ?_, ?_⟩
  · unfold zTRVelProfCreate
    norm_num
  · unfold zTRVelProfVel
    norm_num

/-- A feasible profile: from rest to rest over distance 4 with velocity limit 1 and acceleration limit 1. -/
example : ∃ p, zTRVelProfCreate 0 0 1 1 4 = .ok p ∧ zTRVelProfDist p p.t = 4 := by
  have h : ∃ p, zTRVelProfCreate 0 0 1 1 4 = .ok p := by
    unfold zTRVelProfCreate
    norm_num
  obtain ⟨p, hp⟩ := h
  exact ⟨p, hp, (trvel_partial 0 0 1 1 4 p hp (by simp) (by simp)).2.2.2.2.2.1⟩

end

/-! ## Clothoid -/

theorem zFresnelIntgGen_zero (tol : ℝ) (scale : ℝ → ℝ → ℝ × ℝ) (f0 f1 f2 : ℝ) : zFresnelIntgGen tol scale 0 f0 f1 f2 = (0, 0) := by
  unfold zFresnelIntgGen
  split
  · simp
  · simp

/-- **C75.** At `s = 0` the abscissa of a clothoid segment is `x0`, but so is the ordinate: the segment starts at its
initial point exactly when `x0 = y0`. -/
theorem zClothoidXY_start_partial (tol : ℝ) (scale : ℝ → ℝ → ℝ × ℝ) (cl : Clothoid) :
    (zClothoidXY tol scale cl 0).1 = cl.x0 ∧ (zClothoidXY tol scale cl 0 = (cl.x0, cl.y0) ↔ cl.x0 = cl.y0) := by
  unfold zClothoidXY
  rw [zFresnelIntgGen_zero]
  simp

/-- **C75, violated.** -/
theorem zClothoidXY_start_violated (tol : ℝ) (scale : ℝ → ℝ → ℝ × ℝ) (h f0 fc fs : ℝ) :
    zClothoidXY tol scale ⟨0, 1, f0, fc, fs, h⟩ 0 ≠ (0, 1) := by
  intro e
  have := (zClothoidXY_start_partial tol scale ⟨0, 1, f0, fc, fs, h⟩).2.mp e
  simp at this

end Zm.IP
