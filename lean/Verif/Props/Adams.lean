import Mathlib.Algebra.Group.ForwardDiff
import Mathlib.Algebra.Polynomial.Degree.Lemmas
import Mathlib.Algebra.Polynomial.Roots
import Verif.Props.Misc
import Verif.Props.ODEMore

set_option linter.unusedSectionVars false
set_option linter.unusedVariables false

/-! # Adams's methods: C53 -/

namespace Zm.ODE
open Zm Polynomial Finset

section
variable {K : Type*} [Field K] [CharZero K]

/-- The backward binomial polynomials `x (x+1) … (x+m-1) / m!`. -/
noncomputable def bbin (K : Type*) [Field K] : Nat → K[X]
  | 0 => 1
  | m+1 => C (1 / ((m : K) + 1)) * (bbin K m * (X + C (m : K)))

theorem bbin_succ_eval (m : Nat) (x : K) : ((m : K) + 1) * (bbin K (m+1)).eval x = (bbin K m).eval x * (x + m) := by
  have h : ((m : K) + 1) ≠ 0 := Nat.cast_add_one_ne_zero m
  simp only [bbin, eval_mul, eval_C, eval_add, eval_X]
  field_simp

theorem bbin_nabla (m : Nat) (x : K) : (bbin K (m+1)).eval x - (bbin K (m+1)).eval (x - 1) = (bbin K m).eval x := by
  induction m generalizing x with
  | zero => simp [bbin]
  | succ m ih =>
    have h : ((m : K) + 1 + 1) ≠ 0 := by have := Nat.cast_add_one_ne_zero (R := K) (m+1); push_cast at this; exact this
    have h1 := bbin_succ_eval (K := K) (m+1) x
    have h2 := bbin_succ_eval (K := K) (m+1) (x - 1)
    have h3 := bbin_succ_eval (K := K) m x
    have h4 := ih x
    push_cast at h1 h2
    apply mul_left_cancel₀ h
    linear_combination h1 - h2 + (x + m) * h4 - h3

theorem bbin_zero (m : Nat) : (bbin K (m+1)).eval 0 = 0 := by
  induction m with
  | zero => simp [bbin]
  | succ m ih => rw [bbin]; simp [ih]

theorem bbin_one (m : Nat) : (bbin K m).eval 1 = 1 := by
  induction m with
  | zero => simp [bbin]
  | succ m ih =>
    have h : ((m : K) + 1) ≠ 0 := Nat.cast_add_one_ne_zero m
    have := bbin_succ_eval (K := K) m 1
    rw [ih] at this
    apply mul_left_cancel₀ h
    linear_combination this

theorem bbin_degree (m : Nat) : (bbin K m).natDegree ≤ m ∧ (bbin K m).coeff m ≠ 0 := by
  induction m with
  | zero => simp [bbin]
  | succ m ih =>
    have h : ((m : K) + 1) ≠ 0 := Nat.cast_add_one_ne_zero m
    have hx : (X + C (m : K)).natDegree ≤ 1 := by simpa using (natDegree_X_add_C (m : K)).le
    constructor
    · rw [bbin]
      refine (natDegree_C_mul_le _ _).trans ((natDegree_mul_le).trans ?_)
      omega
    · rw [bbin, coeff_C_mul, mul_add, coeff_add, coeff_mul_X, coeff_mul_C, coeff_eq_zero_of_natDegree_lt (by omega : (bbin K m).natDegree < m+1)]
      have := ih.2
      simp only [zero_mul, add_zero, ne_eq, mul_eq_zero, not_or]
      exact ⟨one_div_ne_zero h, this⟩

/-- A polynomial that a shift by one leaves unchanged and that vanishes at zero is zero. -/
theorem poly_periodic (Q : K[X]) (h0 : Q.eval 0 = 0) (h : ∀ x, Q.eval x = Q.eval (x - 1)) : Q = 0 := by
  have hn : ∀ n : Nat, Q.eval (n : K) = 0 := by
    intro n
    induction n with
    | zero => simpa using h0
    | succ n ih => rw [h]; simpa using ih
  refine Polynomial.eq_zero_of_infinite_isRoot Q (Set.Infinite.mono (s := Set.range fun n : Nat => (n : K)) ?_ (Set.infinite_range_of_injective Nat.cast_injective))
  rintro x ⟨n, rfl⟩
  exact hn n

theorem bbin_derivative (m : Nat) : (bbin K m).derivative = ∑ j ∈ range m, C (1 / ((j : K) + 1)) * bbin K (m - 1 - j) := by
  induction m with
  | zero => simp [bbin]
  | succ m ih =>
    rw [← sub_eq_zero]
    have hz : ∀ k, (bbin K k).eval 0 = if k = 0 then 1 else 0 := by
      intro k; cases k with
      | zero => simp [bbin]
      | succ k => rw [bbin_zero]; simp
    have hsum : ∀ n, (∑ j ∈ range (n+1), C (1 / ((j : K) + 1)) * bbin K (n - j)).eval 0 = 1 / ((n : K) + 1) := by
      intro n
      rw [eval_finsetSum, sum_eq_single n]
      · simp [hz]
      · intro b hb hbn; rw [mem_range] at hb; rw [eval_mul, hz, if_neg (by omega)]; simp
      · intro h; simp at h
    apply poly_periodic
    · rw [eval_sub]
      have e2 := hsum m
      simp only [Nat.add_sub_cancel] at e2 ⊢
      rw [e2, bbin]
      simp only [derivative_C_mul, derivative_mul, derivative_add, derivative_X, derivative_C, eval_mul, eval_C, eval_add, eval_X, ih]
      cases m with
      | zero => simp [bbin]
      | succ m =>
        have h : ((m : K) + 1) ≠ 0 := Nat.cast_add_one_ne_zero m
        have e3 := hsum m
        simp only [Nat.add_sub_cancel] at e3 ⊢
        rw [e3, hz, if_neg (by omega)]
        push_cast
        field_simp
        simp
    · intro x
      rw [← sub_eq_zero]
      have hd : ∀ x, (bbin K (m+1)).derivative.eval x - (bbin K (m+1)).derivative.eval (x - 1) = (bbin K m).derivative.eval x := by
        have he : (bbin K (m+1)) - (bbin K (m+1)).comp (X - 1) = bbin K m := by
          haveI : Infinite K := Infinite.of_injective (fun n : Nat => (n : K)) Nat.cast_injective
          apply Polynomial.funext; intro x
          simpa using bbin_nabla m x
        intro x
        rw [← he]
        simp [derivative_comp]
      have h2 := hd x
      rw [ih] at h2
      simp only [eval_sub, eval_finsetSum, eval_mul, eval_C, Nat.add_sub_cancel] at h2 ⊢
      have h3 : ∑ j ∈ range (m+1), 1 / ((j : K) + 1) * (bbin K (m - j)).eval x - ∑ j ∈ range (m+1), 1 / ((j : K) + 1) * (bbin K (m - j)).eval (x - 1) =
          ∑ j ∈ range m, 1 / ((j : K) + 1) * (bbin K (m - 1 - j)).eval x := by
        rw [sum_range_succ, sum_range_succ]
        simp only [Nat.sub_self, bbin, eval_one]
        rw [add_sub_add_right_eq_sub, ← sum_sub_distrib]
        refine sum_congr rfl fun j hj => ?_
        rw [mem_range] at hj
        obtain ⟨k, hk⟩ : ∃ k, m - j = k + 1 := ⟨m - j - 1, by omega⟩
        rw [show m - 1 - j = k by omega, hk, ← bbin_nabla k x]
        ring
      linear_combination h2 - h3

/-! ## The coefficients -/

theorem adamsG_spec (n : Nat) (g0 : K) (i : Nat) (hi : i < n) :
    adamsG n g0 0 = 1 ∧ (0 < i → adamsG n g0 i = g0 - ∑ j ∈ Ico 1 (i+1), adamsG n g0 (i-j) / ((j : K) + 1)) := by
  have inner : ∀ (i : Nat) (g : Nat → K), forUp 1 (i+1) (fun j g => set1 g i (g i - g (i-j) / ((j : K) + 1))) (set1 g i g0) =
      set1 g i (g0 - ∑ j ∈ Ico 1 (i+1), g (i-j) / ((j : K) + 1)) := by
    intro i g
    refine forUp_inv (fun j g => set1 g i (g i - g (i-j) / ((j : K) + 1))) (set1 g i g0)
      (P := fun k t => t = set1 g i (g0 - ∑ j ∈ Ico 1 k, g (i-j) / ((j : K) + 1))) (by omega) (by simp) ?_
    rintro j t h1 h2 rfl
    funext q
    by_cases hq : q = i
    · subst hq
      rw [set1_same, set1_same, set1_same, set1_ne _ _ (by omega : q - j ≠ q), sum_Ico_succ_top h1]
      ring
    · rw [set1_ne _ _ hq, set1_ne _ _ hq, set1_ne _ _ hq]
  have key := forUp_inv (fun i g => forUp 1 (i+1) (fun j g => set1 g i (g i - g (i-j) / ((j : K) + 1))) (set1 g i g0)) (set1 (fun _ => (0:K)) 0 1)
    (P := fun k t => t 0 = 1 ∧ ∀ i, 0 < i → i < k → t i = g0 - ∑ j ∈ Ico 1 (i+1), t (i-j) / ((j : K) + 1)) (lo := 1) (hi := max 1 n) (by omega)
    ⟨by rw [set1_same], by intro i h1 h2; omega⟩
    (by
      rintro k t h1 h2 ⟨e0, e1⟩
      rw [inner]
      refine ⟨by rw [set1_ne _ _ (by omega)]; exact e0, fun i hi hik => ?_⟩
      by_cases hq : i = k
      · subst hq
        rw [set1_same]
        congr 1
        refine sum_congr rfl fun j hj => ?_
        rw [mem_Ico] at hj
        rw [set1_ne _ _ (by omega)]
      · rw [set1_ne _ _ hq, e1 i hi (by omega)]
        congr 1
        refine sum_congr rfl fun j hj => ?_
        rw [mem_Ico] at hj
        rw [set1_ne _ _ (by omega)])
  rw [show max 1 n = n by omega] at key
  exact ⟨key.1, fun h => key.2 i h hi⟩

theorem adamsWeight_spec (n : Nat) (g0 : K) (i : Nat) (hi : i < n) :
    adamsWeight n g0 (fun _ => 0) i = ∑ j ∈ Ico i n, (-1) ^ i * (j.choose i : K) * adamsG n g0 j := by
  unfold adamsWeight
  generalize adamsG n g0 = g
  have inner : ∀ (i : Nat), i < n → ∀ (w : Nat → K), forUp i n (fun j w => set1 w i (w i + Misc.zCombination (j : Int) (i : Int) * g j)) w =
      set1 w i (w i + ∑ j ∈ Ico i n, (j.choose i : K) * g j) := by
    intro i hi w
    refine forUp_inv (fun j w => set1 w i (w i + Misc.zCombination (j : Int) (i : Int) * g j)) w
      (P := fun k t => t = set1 w i (w i + ∑ j ∈ Ico i k, (j.choose i : K) * g j)) (by omega) ?_ ?_
    · funext q
      by_cases hq : q = i
      · subst hq; rw [set1_same]; simp
      · rw [set1_ne _ _ hq]
    · rintro j t h1 h2 rfl
      funext q
      by_cases hq : q = i
      · subst hq
        rw [set1_same, set1_same, set1_same, sum_Ico_succ_top h1, Misc.zCombination_eq j q h1]
        ring
      · rw [set1_ne _ _ hq, set1_ne _ _ hq, set1_ne _ _ hq]
  have key := forUp_inv (fun i w =>
      let w := forUp i n (fun j w => set1 w i (w i + Misc.zCombination (j : Int) (i : Int) * g j)) w
      if i % 2 = 1 then set1 w i (- w i) else w) (fun _ => (0:K))
    (P := fun k t => (∀ i, i < k → t i = ∑ j ∈ Ico i n, (-1) ^ i * (j.choose i : K) * g j) ∧ ∀ i, k ≤ i → t i = 0) (lo := 0) (hi := n) (by omega)
    ⟨by intro i h; omega, by intros; rfl⟩
    (by
      rintro k t h1 h2 ⟨e0, e1⟩
      dsimp only
      rw [inner k h2, e1 k le_rfl, zero_add]
      have hs : (-1 : K) ^ k = if k % 2 = 1 then -1 else 1 := by
        split_ifs with h
        · exact Odd.neg_one_pow (Nat.odd_iff.2 h)
        · exact Even.neg_one_pow (Nat.even_iff.2 (by omega))
      constructor
      · intro i hik
        by_cases hq : i = k
        · subst hq
          simp only [mul_assoc]
          rw [← mul_sum, hs]
          split_ifs
          · rw [set1_same, set1_same]; ring
          · rw [set1_same]; ring
        · split_ifs
          · rw [set1_ne _ _ hq, set1_ne _ _ hq, e0 i (by omega)]
          · rw [set1_ne _ _ hq, e0 i (by omega)]
      · intro i hik
        split_ifs
        · rw [set1_ne _ _ (by omega), set1_ne _ _ (by omega), e1 i (by omega)]
        · rw [set1_ne _ _ (by omega), e1 i (by omega)])
  exact key.1 i hi

theorem bbin_diff (m j : Nat) : (fwdDiff (1:K))^[j] (fun y => (bbin K m).eval (-y)) =
    fun y => if j ≤ m then (-1) ^ j * (bbin K (m - j)).eval (-y) else 0 := by
  induction j with
  | zero => simp
  | succ j ih =>
    rw [Function.iterate_succ_apply', ih]
    funext y
    unfold fwdDiff
    beta_reduce
    by_cases h : j + 1 ≤ m
    · rw [if_pos (by omega), if_pos (by omega), if_pos h]
      obtain ⟨k, hk⟩ : ∃ k, m - j = k + 1 := ⟨m - j - 1, by omega⟩
      rw [show m - (j+1) = k by omega, hk, ← bbin_nabla k (-y), show -(y + 1) = -y - 1 by ring, pow_succ]
      ring
    · rw [if_neg h]
      by_cases h' : j ≤ m
      · rw [if_pos h', if_pos h', show m - j = 0 by omega]; simp [bbin]
      · rw [if_neg h', if_neg h']; simp

theorem bbin_alt (m j : Nat) : ∑ i ∈ range (j+1), (-1) ^ i * (j.choose i : K) * (bbin K m).eval (-(i : K)) = if j = m then 1 else 0 := by
  have h := fwdDiff_iter_eq_sum_shift (1:K) (fun y => (bbin K m).eval (-y)) j 0
  rw [bbin_diff] at h
  have e : ∑ i ∈ range (j+1), (-1) ^ i * (j.choose i : K) * (bbin K m).eval (-(i : K)) =
      (-1) ^ j * ∑ k ∈ range (j + 1), ((-1 : ℤ) ^ (j - k) * j.choose k) • (bbin K m).eval (-(0 + k • (1:K))) := by
    rw [mul_sum]
    refine sum_congr rfl fun i hi => ?_
    rw [mem_range] at hi
    obtain ⟨k, rfl⟩ : ∃ k, j = i + k := ⟨j - i, by omega⟩
    rw [zsmul_eq_mul, zero_add, nsmul_eq_mul, mul_one, Nat.add_sub_cancel_left, pow_add]
    push_cast
    have : ((-1 : K) ^ k) * (-1) ^ k = 1 := by rw [← mul_pow]; simp
    linear_combination (-(-1) ^ i * ((i + k).choose i : K) * (bbin K m).eval (-(i : K))) * this
  rw [e]
  rw [← h]
  beta_reduce
  have hz : ∀ k, (bbin K k).eval (-0) = if k = 0 then 1 else 0 := by
    intro k; rw [neg_zero]; cases k with
    | zero => simp [bbin]
    | succ k => rw [bbin_zero]; simp
  by_cases h1 : j ≤ m
  · rw [if_pos h1, hz]
    by_cases h2 : j = m
    · subst h2; simp [← mul_pow]
    · rw [if_neg h2, if_neg (by omega)]; simp
  · rw [if_neg h1, if_neg (by omega)]; simp

/-- The weighted sum of the backward binomials is the coefficient of the recurrence. -/
theorem adamsWeight_bbin (n : Nat) (g0 : K) (m : Nat) (hm : m < n) :
    ∑ i ∈ range n, adamsWeight n g0 (fun _ => 0) i * (bbin K m).eval (-(i : K)) = adamsG n g0 m := by
  have h1 : ∀ i ∈ range n, adamsWeight n g0 (fun _ => 0) i * (bbin K m).eval (-(i : K)) =
      ∑ j ∈ Ico i n, adamsG n g0 j * ((-1) ^ i * (j.choose i : K) * (bbin K m).eval (-(i : K))) := by
    intro i hi
    rw [adamsWeight_spec n g0 i (mem_range.1 hi), sum_mul]
    exact sum_congr rfl fun j _ => by ring
  rw [sum_congr rfl h1, range_eq_Ico, sum_sigma', sum_bij' (t := (range n).sigma fun j => range (j+1)) (g := fun x => adamsG n g0 x.1 * ((-1) ^ x.2 * (x.1.choose x.2 : K) * (bbin K m).eval (-(x.2 : K))))
    (i := fun x _ => ⟨x.2, x.1⟩) (j := fun x _ => ⟨x.2, x.1⟩)]
  · rw [sum_sigma]
    simp only [← mul_sum, bbin_alt]
    simp [hm]
  all_goals simp
  all_goals omega

/-- Antiderivatives of the backward binomials. -/
noncomputable def anti (K : Type*) [Field K] (m : Nat) : K[X] :=
  bbin K (m+1) - ∑ j : Fin m, C (1 / ((j : K) + 1 + 1)) * anti K (m - 1 - j)
termination_by m
decreasing_by have := j.2; omega

theorem anti_eq (m : Nat) : anti K m = bbin K (m+1) - ∑ j ∈ range m, C (1 / ((j : K) + 1 + 1)) * anti K (m - 1 - j) := by
  rw [anti, Finset.sum_range]

theorem anti_derivative (m : Nat) : (anti K m).derivative = bbin K m := by
  induction m using Nat.strong_induction_on with
  | _ m ih =>
    rw [anti_eq, derivative_sub, bbin_derivative, derivative_sum, sum_range_succ']
    simp only [derivative_C_mul, Nat.add_sub_cancel, Nat.sub_zero, Nat.cast_zero, zero_add, div_one, C_1, one_mul]
    rw [add_comm, add_sub_assoc, ← sum_sub_distrib]
    conv_rhs => rw [← add_zero (bbin K m)]
    congr 1
    apply sum_eq_zero
    intro j hj
    rw [mem_range] at hj
    rw [ih _ (by omega), show m - (j+1) = m - 1 - j by omega]
    push_cast
    ring

theorem anti_degree (m : Nat) : (anti K m).natDegree ≤ m + 1 := by
  induction m using Nat.strong_induction_on with
  | _ m ih =>
    rw [anti_eq]
    refine (natDegree_sub_le _ _).trans (max_le (bbin_degree (m+1)).1 ?_)
    refine natDegree_sum_le_of_forall_le _ _ fun j hj => ?_
    rw [mem_range] at hj
    refine (natDegree_C_mul_le _ _).trans ((ih _ (by omega)).trans ?_)
    omega

theorem anti_coeff (m : Nat) : (anti K m).coeff (m+1) ≠ 0 := by
  have h := congrArg (fun p => p.coeff m) (anti_derivative (K := K) m)
  simp only [coeff_derivative] at h
  intro h0
  rw [h0, zero_mul] at h
  exact (bbin_degree m).2 h.symm

/-- The increments of the antiderivatives obey the recurrence of the coefficients. -/
theorem adamsG_anti (n : Nat) (g0 a : K) (h0 : a = 1 ∧ g0 = 1 ∨ a = 0 ∧ g0 = 0) (m : Nat) (hm : m < n) :
    adamsG n g0 m = (anti K m).eval a - (anti K m).eval (a - 1) := by
  induction m using Nat.strong_induction_on with
  | _ m ih =>
    rw [anti_eq]
    simp only [eval_sub, eval_finsetSum, eval_mul, eval_C]
    have e1 : (bbin K (m+1)).eval a - (bbin K (m+1)).eval (a - 1) = if m = 0 then 1 else g0 := by
      rw [bbin_nabla]
      rcases h0 with ⟨rfl, rfl⟩ | ⟨rfl, rfl⟩
      · rw [bbin_one]; simp
      · cases m with
        | zero => simp [bbin]
        | succ k => rw [bbin_zero]; simp
    have e2 : ∑ j ∈ range m, 1 / ((j : K) + 1 + 1) * (anti K (m - 1 - j)).eval a - ∑ j ∈ range m, 1 / ((j : K) + 1 + 1) * (anti K (m - 1 - j)).eval (a - 1) =
        ∑ j ∈ Ico 1 (m+1), adamsG n g0 (m-j) / ((j : K) + 1) := by
      rw [← sum_sub_distrib, sum_Ico_eq_sum_range]
      refine sum_congr rfl fun j hj => ?_
      rw [mem_range] at hj
      rw [show m - (1 + j) = m - 1 - j by omega, ih (m - 1 - j) (by omega) (by omega)]
      push_cast
      ring
    by_cases hz : m = 0
    · subst hz
      rw [(adamsG_spec n g0 0 hm).1]
      simp only [if_true] at e1
      simp only [range_zero, sum_empty, sub_zero]
      rw [e1]
    · rw [(adamsG_spec n g0 m hm).2 (by omega)]
      rw [if_neg hz] at e1
      linear_combination e2 - e1

/-- On the unit grid. -/
theorem adams_unit (n : Nat) (g0 a : K) (h0 : a = 1 ∧ g0 = 1 ∨ a = 0 ∧ g0 = 0) (k : Nat) (hk : k ≤ n) (P : K[X]) (hP : P.natDegree ≤ k) :
    ∑ i ∈ range n, adamsWeight n g0 (fun _ => 0) i * P.derivative.eval (-(i : K)) = P.eval a - P.eval (a - 1) := by
  induction k generalizing P with
  | zero =>
    rw [natDegree_eq_zero.1 (Nat.le_zero.1 hP) |>.choose_spec.symm]
    simp
  | succ m ih =>
    have hc := anti_coeff (K := K) m
    let c := P.coeff (m+1) / (anti K m).coeff (m+1)
    have hd : (P - C c * anti K m).natDegree ≤ m := by
      rw [natDegree_le_iff_coeff_eq_zero]
      intro N hN
      rw [coeff_sub, coeff_C_mul]
      rcases Nat.eq_or_lt_of_le (Nat.succ_le_of_lt hN) with h | h
      · rw [← h]; show _ - P.coeff (m+1) / (anti K m).coeff (m+1) * (anti K m).coeff (m+1) = 0
        field_simp; simp
      · rw [coeff_eq_zero_of_natDegree_lt (lt_of_le_of_lt hP h), coeff_eq_zero_of_natDegree_lt (lt_of_le_of_lt (anti_degree m) h)]; simp
    have h1 := ih (by omega) _ hd
    have h2 := (adamsWeight_bbin n g0 m (by omega)).trans (adamsG_anti n g0 a h0 m (by omega))
    have h3 : ∑ i ∈ range n, adamsWeight n g0 (fun _ => 0) i * (P - C c * anti K m).derivative.eval (-(i : K)) =
        ∑ i ∈ range n, adamsWeight n g0 (fun _ => 0) i * P.derivative.eval (-(i : K)) -
        c * ∑ i ∈ range n, adamsWeight n g0 (fun _ => 0) i * (bbin K m).eval (-(i : K)) := by
      rw [mul_sum, ← sum_sub_distrib]
      refine sum_congr rfl fun i _ => ?_
      rw [derivative_sub, derivative_C_mul, anti_derivative, eval_sub, eval_mul, eval_C]
      ring
    rw [h3, h2] at h1
    simp only [eval_sub, eval_mul, eval_C] at h1
    linear_combination h1

/-- C53: the weights of the `n`-step Adams-Bashforth formula, the predictor, are exact for right-hand sides of degree less than `n`: for every
polynomial `P` of degree at most `n` and all times. -/
theorem adamsBashforth_exact (n : Nat) (P : K[X]) (hP : P.natDegree ≤ n) (t dt : K) :
    dt * ∑ i ∈ range n, adamsWeight n (1 : K) (fun _ => 0) i * P.derivative.eval (t - i * dt) = P.eval (t + dt) - P.eval t := by
  have hQ : (P.comp (C t + C dt * X)).natDegree ≤ n := by
    refine (natDegree_comp_le).trans ?_
    have : (C t + C dt * X).natDegree ≤ 1 := by rw [add_comm]; exact natDegree_linear_le
    calc _ ≤ P.natDegree * 1 := Nat.mul_le_mul_left _ this
      _ ≤ n := by omega
  have h := adams_unit n (1:K) 1 (Or.inl ⟨rfl, rfl⟩) n le_rfl _ hQ
  simp only [derivative_comp, eval_mul, eval_comp, eval_add, eval_C, eval_X, derivative_add, derivative_C, derivative_C_mul, derivative_X, eval_one, mul_one, zero_add, sub_self, mul_zero, add_zero] at h
  rw [mul_sum, ← h]
  refine sum_congr rfl fun i _ => ?_
  rw [show t - i * dt = t + dt * -(i:K) by ring]
  ring

/-- C53: the same for the `n`-step Adams-Moulton formula, the corrector, whose first node is the new time. -/
theorem adamsMoulton_exact (n : Nat) (P : K[X]) (hP : P.natDegree ≤ n) (t dt : K) :
    dt * ∑ i ∈ range n, adamsWeight n (0 : K) (fun _ => 0) i * P.derivative.eval (t + dt - i * dt) = P.eval (t + dt) - P.eval t := by
  have hQ : (P.comp (C (t + dt) + C dt * X)).natDegree ≤ n := by
    refine (natDegree_comp_le).trans ?_
    have : (C (t + dt) + C dt * X).natDegree ≤ 1 := by rw [add_comm]; exact natDegree_linear_le
    calc _ ≤ P.natDegree * 1 := Nat.mul_le_mul_left _ this
      _ ≤ n := by omega
  have h := adams_unit n (0:K) 0 (Or.inr ⟨rfl, rfl⟩) n le_rfl _ hQ
  simp only [derivative_comp, eval_mul, eval_comp, eval_add, eval_C, eval_X, derivative_add, derivative_C, derivative_C_mul, derivative_X, eval_one, mul_one, zero_add, mul_zero, add_zero] at h
  rw [show t + dt + dt * (0 - 1) = t by ring] at h
  rw [mul_sum, ← h]
  refine sum_congr rfl fun i _ => ?_
  rw [show t + dt - i * dt = t + dt + dt * -(i:K) by ring]
  ring

/-! ## The update -/

variable {V : Type*} [AddCommGroup V] [Module K V]

theorem Ring.linearSum_spec (n : Nat) (w : Nat → K) (r : Ring V) : r.linearSum n w = ∑ i ∈ range n, w i • r.elem i := by
  unfold Ring.linearSum
  exact forUp_inv (fun i s => cat s (w i) (r.elem i)) 0 (P := fun k s => s = ∑ i ∈ range k, w i • r.elem i) (Nat.zero_le n) (by simp)
    (by rintro i s - - rfl; rw [sum_range_succ]; rfl)

theorem adamsStep_exact {ι : Type*} (n : Nat) (w : Nat → K) (P : ι → K[X]) (t dt : K) (s : K) (r : Ring (ι → K)) (hs : r.size = n) (hn : 0 < n)
    (hr : ∀ i, 0 < i → i < n → ∀ j, r.elem i j = (P j).derivative.eval (s - i * dt)) (x xorg : ι → K)
    (hw : ∀ j, dt * ∑ i ∈ range n, w i * (P j).derivative.eval (s - i * dt) = (P j).eval (t + dt) - (P j).eval t) :
    (adamsStep n (fun t _ j => (P j).derivative.eval t) s x xorg w dt r).1 = (fun j => x j + ((P j).eval (t + dt) - (P j).eval t)) ∧
      (adamsStep n (fun t _ j => (P j).derivative.eval t) s x xorg w dt r).2.size = n ∧
      ∀ i, i < n → ∀ j, (adamsStep n (fun t _ j => (P j).derivative.eval t) s x xorg w dt r).2.elem i j = (P j).derivative.eval (s - i * dt) := by
  have he : ∀ i, i < n → ∀ j, (r.setHead fun j => (P j).derivative.eval s).elem i j = (P j).derivative.eval (s - i * dt) := by
    intro i hi j
    rw [Ring.elem_setHead _ _ _ (by omega)]
    by_cases h0 : i = 0
    · subst h0; simp
    · rw [if_neg h0]; exact hr i (by omega) hi j
  refine ⟨?_, hs, he⟩
  funext j
  show cat x dt _ j = _
  rw [Ring.linearSum_spec]
  simp only [cat, Pi.add_apply, Pi.smul_apply, Finset.sum_apply, smul_eq_mul]
  rw [← hw j]
  congr 2
  exact sum_congr rfl fun i hi => by rw [he i (mem_range.1 hi) j]

/-- C53: one update of the predictor-corrector method. If the history holds the derivatives of polynomials of degree at most the number of steps
at the preceding equidistant times, the state moves exactly like the polynomials, and the history is the one for the next step. -/
theorem zODEUpdateAdams_exact {ι : Type*} [LinearOrder K] (near : (ι → K) → (ι → K) → Bool) (n : Nat) (hn : 0 < n) (P : ι → K[X])
    (hP : ∀ j, (P j).natDegree ≤ n) (t dt : K) (x x2 : ι → K) (r : Ring (ι → K)) (hs : r.size = n)
    (hr : ∀ i, i + 1 < n → ∀ j, r.elem i j = (P j).derivative.eval (t - (i + 1) * dt)) :
    let y := zODEUpdateAdams near n (fun t _ j => (P j).derivative.eval t) t x dt x2 r
    y.1 = (fun j => x j + ((P j).eval (t + dt) - (P j).eval t)) ∧ y.2.size = n ∧
      ∀ i, i + 1 < n → ∀ j, y.2.elem i j = (P j).derivative.eval (t + dt - (i + 1) * dt) := by
  intro y
  have p := adamsStep_exact n (adamsWeight n (1 : K) fun _ => 0) P t dt t r.dec hs hn (by
    intro i h0 hi j
    obtain ⟨k, rfl⟩ : ∃ k, i = k + 1 := ⟨i - 1, by omega⟩
    rw [Ring.elem_dec _ _ (by omega), hr k hi j]; push_cast; ring_nf) x x (fun j => adamsBashforth_exact n (P j) (hP j) t dt)
  set s := adamsStep n (fun t _ j => (P j).derivative.eval t) t x x (adamsWeight n (1 : K) fun _ => 0) dt r.dec with hsdef
  obtain ⟨p1, p2, p3⟩ := p
  have corr : ∀ (m : Nat) (xold xnew : ι → K) (q : Ring (ι → K)), q.size = n →
      (∀ i, 0 < i → i < n → ∀ j, q.elem i j = (P j).derivative.eval (t + dt - i * dt)) →
      (m = 0 → xnew = fun j => x j + ((P j).eval (t + dt) - (P j).eval t)) → xold = (fun j => x j + ((P j).eval (t + dt) - (P j).eval t)) →
      let y := adamsCorrect near n (fun t _ j => (P j).derivative.eval t) (t + dt) x (adamsWeight n (0 : K) fun _ => 0) dt m xold xnew q
      y.1 = (fun j => x j + ((P j).eval (t + dt) - (P j).eval t)) ∧ y.2.size = n ∧
        ∀ i, 0 < i → i < n → ∀ j, y.2.elem i j = (P j).derivative.eval (t + dt - i * dt) := by
    intro m
    induction m with
    | zero => intro xold xnew q h1 h2 h3 h4; exact ⟨h3 rfl, h1, h2⟩
    | succ m ih =>
      intro xold xnew q h1 h2 h3 h4
      have c := adamsStep_exact n (adamsWeight n (0 : K) fun _ => 0) P t dt (t + dt) q h1 hn h2 x xold (fun j => adamsMoulton_exact n (P j) (hP j) t dt)
      unfold adamsCorrect
      dsimp only
      split_ifs with hne
      · exact ⟨c.1, c.2.1, fun i _ hi => c.2.2 i hi⟩
      · exact ih _ _ _ c.2.1 (fun i _ hi => c.2.2 i hi) (fun _ => h4) c.1
  have c := corr 10000 s.1 x2 s.2.dec p2 (by
    intro i h0 hi j
    obtain ⟨k, rfl⟩ : ∃ k, i = k + 1 := ⟨i - 1, by omega⟩
    rw [Ring.elem_dec _ _ (by omega), p3 k (by omega) j]; push_cast; ring_nf) (by intro h; omega) p1
  refine ⟨c.1, c.2.1, fun i hi j => ?_⟩
  have e : y.2.elem i = _ := Ring.elem_inc _ i
  rw [e, c.2.2 (i+1) (by omega) hi j]
  push_cast; ring_nf

example : (adamsWeight 3 (1:ℚ) (fun _ => 0) 0, adamsWeight 3 (1:ℚ) (fun _ => 0) 1, adamsWeight 3 (1:ℚ) (fun _ => 0) 2) = (23/12, -16/12, 5/12) := by
  simp only [adamsWeight_spec 3 (1:ℚ) _ (by norm_num : 0 < 3), adamsWeight_spec 3 (1:ℚ) _ (by norm_num : 1 < 3), adamsWeight_spec 3 (1:ℚ) _ (by norm_num : 2 < 3)]
  norm_num [sum_Ico_eq_sum_range, sum_range_succ, adamsG, forUp, forN, set1, Nat.choose]

end
end Zm.ODE
