import Verif.Props.BesselAcc

/-! # Accuracy of `zBesselJ0` and `zBesselJ1` -/

set_option linter.unusedSectionVars false

namespace Zm.Bessel
open Zm Finset

/-! ## The tables -/

set_option maxRecDepth 100000

theorem J0a_close : dist (ser (-1) 0 (1/4) 0 16) (1/2) (row tJ0a 0 8) (1/2) (1/2) ≤ 1 / 200000000000000 := by decide +kernel

theorem J0b_close : ∀ k : Nat, k < 5 → dist (ser (-1) 0 4 0 24) (k + 1/2) (row tJ0b (13 * k) 13) 0 (1/2) ≤ 1 / 200000000000000 := by decide +kernel

theorem J0c_close : ∀ k : Nat, k < 5 → dist (inter (ser (-1) 0 (1/4) 0 32)) (k + 8 + 1/2) (row tJ0c (14 * k) 14) 0 (1/2) ≤ 1 / 200000000000000 := by decide +kernel

theorem J1a_close : dist (half (ser (-1) 1 (1/4) 0 16)) (1/2) (row tJ1a 0 8) (1/2) (1/2) ≤ 1 / 200000000000000 := by decide +kernel

theorem J1b_close : ∀ k : Nat, k < 5 → dist (half (ser (-1) 1 4 0 24)) (k + 1/2) (row tJ1b (13 * k) 13) 0 (1/2) ≤ 1 / 2000000000000000 := by decide +kernel

theorem J1c_close : ∀ k : Nat, k < 5 → dist (0 :: inter (half (ser (-1) 1 (1/4) 0 32))) (k + 8 + 1/2) (row tJ1c (14 * k) 14) 0 (1/2) ≤ 1 / 200000000000000 := by decide +kernel


theorem tailJ0 : tailQ 0 16 (1/4) ≤ 1 / 1000000000000000 ∧ tailQ 0 24 (289/16) ≤ 1 / 1000000000000000 ∧ tailQ 0 32 (625/16) ≤ 1 / 1000000000000000 := by decide +kernel

theorem tailJ1 : tailQ 1 16 (1/4) ≤ 1 / 10000000000000000 ∧ tailQ 1 24 (289/16) ≤ 1 / 10000000000000000 ∧ tailQ 1 32 (625/16) ≤ 1 / 10000000000000000 := by decide +kernel

/-- The integer part of a number in a range, as a natural number. -/
theorem toInt_nat {t : ℝ} (lo n : Nat) (h0 : (lo : ℝ) ≤ t) (h : t < (lo + n : ℕ)) : ∃ k : Nat, k < n ∧ toInt t = k + lo ∧ (k : ℝ) + lo ≤ t ∧ t < k + lo + 1 := by
  obtain ⟨h1, h2, h3, h4⟩ := toInt_range (t := t) lo (lo + n : ℕ) (by omega) (by exact_mod_cast h0) (by exact_mod_cast h)
  obtain ⟨k, hk⟩ := Int.eq_ofNat_of_zero_le (a := toInt t - lo) (by omega)
  have e : toInt t = k + lo := by omega
  rw [e] at h3 h4
  push_cast at h3 h4
  exact ⟨k, by omega, e, h3, h4⟩

theorem zBesselJ0_accurate_partial {x : ℝ} (h : |x| < 25 / 2) : ∃ y, zBesselJ0 x = .ok y ∧ |y - J 0 x| ≤ 1 / 100000000000000 := by
  rw [J_eq, ← B_abs0]
  unfold zBesselJ0
  dsimp only
  have h0 := abs_nonneg x
  generalize |x| = z at *
  by_cases h1 : z < 1
  · rw [if_pos h1, brec_int tJ0a 0 8 le_rfl (by rw [len_J0a]; norm_num) (by omega) _]
    refine ⟨_, rfl, ?_⟩
    have a1 := series_tail (σ := -1) (by norm_num) 0 16 (x := z) (U := 1/4) (by push_cast; nlinarith) (by norm_num) (lam := 1/4) (t := z * z) (by push_cast; ring)
    have a2 := close' J0a_close (by norm_num) (u := z * z) (w := z * z) (z * z - 1 / 2) (by push_cast; rw [abs_le]; constructor <;> nlinarith) (by push_cast; ring) (by push_cast; ring)
    have a3 : ((tailQ 0 16 (1/4) : ℚ) : ℝ) ≤ ((1 / 1000000000000000 : ℚ) : ℝ) := by exact_mod_cast tailJ0.1
    rw [pow_zero, pow_zero, one_mul, one_mul] at a1
    refine (via (a1.trans a3) a2).trans ?_
    norm_num
  rw [if_neg h1]
  by_cases h2 : z < 17 / 2
  · rw [if_pos h2]
    obtain ⟨h3, h4⟩ := sixteenth h0 h2
    obtain ⟨k, k1, k2, k3, k4⟩ := toInt_nat (t := z * z * (1 / 16)) 0 5 (by simpa using h3) (by simpa using h4)
    rw [k2, brec_int tJ0b _ 13 (by omega) (by rw [len_J0b]; push_cast; omega) (by omega) _]
    refine ⟨_, rfl, ?_⟩
    rw [show (((k : Int) + (0 : ℕ)) * 13).toNat = 13 * k by omega]
    push_cast at k3 k4 ⊢
    have a1 := series_tail (σ := -1) (by norm_num) 0 24 (x := z) (U := 289/16) (by push_cast; nlinarith) (by norm_num) (lam := 4) (t := z * z * (1 / 16)) (by push_cast; ring)
    have a2 := close' (J0b_close k k1) (by norm_num) (u := z * z * (1 / 16)) (w := z * z * (1 / 16) - (k + 0) - 1 / 2) (z * z * (1 / 16) - k - 1 / 2) (by push_cast; rw [abs_le]; constructor <;> linarith)
      (by push_cast; ring) (by push_cast; ring)
    have a3 : ((tailQ 0 24 (289/16) : ℚ) : ℝ) ≤ ((1 / 1000000000000000 : ℚ) : ℝ) := by exact_mod_cast tailJ0.2.1
    rw [pow_zero, pow_zero, one_mul, one_mul] at a1
    refine (via (a1.trans a3) a2).trans ?_
    norm_num
  rw [if_neg h2, if_pos h]
  obtain ⟨k, k1, k2, k3, k4⟩ := toInt_nat (t := z) 8 5 (by push_cast; linarith) (by push_cast; linarith)
  rw [k2, brec_int tJ0c _ 14 (by omega) (by rw [len_J0c]; push_cast; omega) (by omega) _]
  refine ⟨_, rfl, ?_⟩
  rw [show (((k : Int) + (8 : ℕ) - 8) * 14).toNat = 14 * k by omega]
  push_cast at k3 k4 ⊢
  have a1 := series_tail (σ := -1) (by norm_num) 0 32 (x := z) (U := 625/16) (by push_cast; nlinarith) (by norm_num) (lam := 1/4) (t := z * z) (by push_cast; ring)
  have a2 := close' (J0c_close k k1) (by norm_num) (u := z) (w := z - (k + 8) - 1 / 2) (z - (k + 8) - 1 / 2) (by push_cast; rw [abs_le]; constructor <;> linarith)
    (by push_cast; ring) (by push_cast; ring)
  have a3 : ((tailQ 0 32 (625/16) : ℚ) : ℝ) ≤ ((1 / 1000000000000000 : ℚ) : ℝ) := by exact_mod_cast tailJ0.2.2
  rw [ev_inter] at a2
  rw [pow_zero, pow_zero, one_mul, one_mul] at a1
  refine (via (a1.trans a3) a2).trans ?_
  norm_num

/-- The odd function: a polynomial times the argument. -/
theorem via1 {A q p z d1 d2 : ℝ} (hz : 0 ≤ z) (h1 : |A - (z / 2) ^ 1 * q| ≤ |z / 2| ^ 1 * d1) (h2 : |q / 2 - p| ≤ d2) : |p * z - A| ≤ z / 2 * d1 + d2 * z := by
  rw [pow_one, pow_one, abs_of_nonneg (by positivity : 0 ≤ z / 2)] at h1
  refine via h1 (P := p * z) (d2 := d2 * z) ?_
  rw [show z / 2 * q - p * z = (q / 2 - p) * z by ring, abs_mul, abs_of_nonneg hz]
  exact mul_le_mul_of_nonneg_right h2 hz

theorem besselJ1_accurate {z : ℝ} (h0 : 0 ≤ z) (h : z < 25 / 2) : ∃ y, besselJ1 z = .ok y ∧ |y - J 1 z| ≤ 1 / 100000000000000 := by
  rw [J_eq]
  unfold besselJ1
  dsimp only
  by_cases h1 : z < 1
  · rw [if_pos h1, brec_int tJ1a 0 8 le_rfl (by rw [len_J1a]; norm_num) (by omega) _]
    refine ⟨_, rfl, ?_⟩
    have a1 := series_tail (σ := -1) (by norm_num) 1 16 (x := z) (U := 1/4) (by push_cast; nlinarith) (by norm_num) (lam := 1/4) (t := z * z) (by push_cast; ring)
    have a2 := close' J1a_close (by norm_num) (u := z * z) (w := z * z) (z * z - 1 / 2) (by push_cast; rw [abs_le]; constructor <;> nlinarith) (by push_cast; ring) (by push_cast; ring)
    have a3 : ((tailQ 1 16 (1/4) : ℚ) : ℝ) ≤ ((1 / 10000000000000000 : ℚ) : ℝ) := by exact_mod_cast tailJ1.1
    rw [ev_half] at a2
    refine (via1 h0 (a1.trans (mul_le_mul_of_nonneg_left a3 (by positivity))) a2).trans ?_
    push_cast; linarith
  rw [if_neg h1]
  by_cases h2 : z < 17 / 2
  · rw [if_pos h2]
    obtain ⟨h3, h4⟩ := sixteenth h0 h2
    obtain ⟨k, k1, k2, k3, k4⟩ := toInt_nat (t := z * z * (1 / 16)) 0 5 (by simpa using h3) (by simpa using h4)
    rw [k2, brec_int tJ1b _ 13 (by omega) (by rw [len_J1b]; push_cast; omega) (by omega) _]
    refine ⟨_, rfl, ?_⟩
    rw [show (((k : Int) + (0 : ℕ)) * 13).toNat = 13 * k by omega]
    push_cast at k3 k4 ⊢
    have a1 := series_tail (σ := -1) (by norm_num) 1 24 (x := z) (U := 289/16) (by push_cast; nlinarith) (by norm_num) (lam := 4) (t := z * z * (1 / 16)) (by push_cast; ring)
    have a2 := close' (J1b_close k k1) (by norm_num) (u := z * z * (1 / 16)) (w := z * z * (1 / 16) - (k + 0) - 1 / 2) (z * z * (1 / 16) - k - 1 / 2) (by push_cast; rw [abs_le]; constructor <;> linarith)
      (by push_cast; ring) (by push_cast; ring)
    have a3 : ((tailQ 1 24 (289/16) : ℚ) : ℝ) ≤ ((1 / 10000000000000000 : ℚ) : ℝ) := by exact_mod_cast tailJ1.2.1
    rw [ev_half] at a2
    refine (via1 h0 (a1.trans (mul_le_mul_of_nonneg_left a3 (by positivity))) a2).trans ?_
    push_cast; linarith
  rw [if_neg h2, if_pos h]
  obtain ⟨k, k1, k2, k3, k4⟩ := toInt_nat (t := z) 8 5 (by push_cast; linarith) (by push_cast; linarith)
  rw [k2, brec_int tJ1c _ 14 (by omega) (by rw [len_J1c]; push_cast; omega) (by omega) _]
  refine ⟨_, rfl, ?_⟩
  rw [show (((k : Int) + (8 : ℕ) - 8) * 14).toNat = 14 * k by omega]
  push_cast at k3 k4 ⊢
  have a1 := series_tail (σ := -1) (by norm_num) 1 32 (x := z) (U := 625/16) (by push_cast; nlinarith) (by norm_num) (lam := 1/4) (t := z * z) (by push_cast; ring)
  have a2 := close' (J1c_close k k1) (by norm_num) (u := z) (w := z - (k + 8) - 1 / 2) (z - (k + 8) - 1 / 2) (by push_cast; rw [abs_le]; constructor <;> linarith)
    (by push_cast; ring) (by push_cast; ring)
  have a3 : ((tailQ 1 32 (625/16) : ℚ) : ℝ) ≤ ((1 / 10000000000000000 : ℚ) : ℝ) := by exact_mod_cast tailJ1.2.2
  rw [ev_cons, ev_inter, ev_half, Rat.cast_zero, zero_add, show z * (ev (ser (-1) 1 (1 / 4) 0 32) (z * z) / 2) = (z / 2) ^ 1 * ev (ser (-1) 1 (1 / 4) 0 32) (z * z) by ring] at a2
  refine (via (a1.trans (mul_le_mul_of_nonneg_left a3 (by positivity))) a2).trans ?_
  rw [pow_one, abs_of_nonneg (by positivity : 0 ≤ z / 2)]
  push_cast; linarith

theorem zBesselJ1_accurate_partial {x : ℝ} (h : |x| < 25 / 2) : ∃ y, zBesselJ1 x = .ok y ∧ |y - J 1 x| ≤ 1 / 100000000000000 := by
  obtain ⟨l1, l2⟩ := abs_lt.mp h
  unfold zBesselJ1
  by_cases hx : x < 0
  · rw [if_pos hx]
    obtain ⟨y, hy, hd⟩ := besselJ1_accurate (z := -x) (by linarith) (by linarith)
    refine ⟨-y, by rw [hy]; rfl, ?_⟩
    rw [J_eq, B_neg, ← J_eq] at hd
    rw [← abs_neg]
    convert hd using 2
    ring
  · rw [if_neg hx]
    exact besselJ1_accurate (not_lt.mp hx) l2

/-! ## Three consecutive orders -/

theorem B_recurrence {σ : ℚ} (hσ : |σ| = 1) (n : Nat) (x : ℝ) : x * (B σ n x - σ * B σ (n + 2) x) = 2 * (n + 1 : ℕ) * B σ (n + 1) x := by
  have h0 := (summable hσ n x).tsum_eq_zero_add
  have h1 := (summable hσ (n + 1) x).tsum_eq_zero_add
  have s0 := (summable_nat_add_iff 1).mpr (summable hσ n x)
  have s1 := (summable_nat_add_iff 1).mpr (summable hσ (n + 1) x)
  have s2 := summable hσ (n + 2) x
  have key : ∀ k, x * ((cf σ n (k + 1) : ℝ) * (x / 2) ^ (2 * (k + 1) + n) - σ * ((cf σ (n + 2) k : ℝ) * (x / 2) ^ (2 * k + (n + 2)))) =
      2 * (n + 1 : ℕ) * ((cf σ (n + 1) (k + 1) : ℝ) * (x / 2) ^ (2 * (k + 1) + (n + 1))) := by
    intro k
    have f1 : ((k + 1).factorial : ℝ) = (k + 1) * k.factorial := by rw [Nat.factorial_succ]; push_cast; ring
    have f2 : ((n + 1 + (k + 1)).factorial : ℝ) = (n + k + 2) * (n + (k + 1)).factorial := by
      rw [show n + 1 + (k + 1) = n + (k + 1) + 1 by omega, Nat.factorial_succ]; push_cast; ring
    have f3 : ((n + 2 + k).factorial : ℝ) = (n + k + 2) * (n + (k + 1)).factorial := by rw [← f2]; congr 2; omega
    have p1 : (k.factorial : ℝ) ≠ 0 := by exact_mod_cast (Nat.factorial_pos k).ne'
    have p2 : ((n + (k + 1)).factorial : ℝ) ≠ 0 := by exact_mod_cast (Nat.factorial_pos (n + (k + 1))).ne'
    have p3 : (n : ℝ) + k + 2 ≠ 0 := by positivity
    have p4 : (k : ℝ) + 1 ≠ 0 := by positivity
    unfold cf
    push_cast
    rw [f1, f2, f3, show 2 * (k + 1) + n = 2 * k + (n + 2) by omega, show 2 * (k + 1) + (n + 1) = 2 * k + (n + 2) + 1 by omega, pow_succ (x / 2), pow_succ (σ : ℝ)]
    field_simp
    ring
  unfold B
  rw [h0, h1, mul_sub, ← tsum_mul_left, mul_add, ← tsum_mul_left, mul_add, ← tsum_mul_left, ← tsum_mul_left, add_sub_assoc, ← Summable.tsum_sub (s0.mul_left x) ((s2.mul_left _).mul_left x)]
  congr 1
  · unfold cf
    have f2 : ((n + 1).factorial : ℝ) = (n + 1) * n.factorial := by rw [Nat.factorial_succ]; push_cast; ring
    have p1 : (n.factorial : ℝ) ≠ 0 := by exact_mod_cast (Nat.factorial_pos n).ne'
    simp only [add_zero, mul_zero, zero_add, pow_zero, Nat.factorial_zero, one_mul]
    push_cast
    rw [f2, pow_succ]
    field_simp
  · refine tsum_congr fun k => ?_
    rw [← key k]; ring

theorem J_recurrence (n : Nat) {x : ℝ} (hx : x ≠ 0) : J (n + 2) x = 2 * (n + 1 : ℕ) / x * J (n + 1) x - J n x := by
  have := B_recurrence (σ := -1) (by norm_num) n x
  rw [J_eq, J_eq, J_eq]
  push_cast at this ⊢
  field_simp
  linarith

theorem I_recurrence (n : Nat) {x : ℝ} (hx : x ≠ 0) : I (n + 2) x = I n x - 2 * (n + 1 : ℕ) / x * I (n + 1) x := by
  have := B_recurrence (σ := 1) (by norm_num) n x
  rw [I_eq, I_eq, I_eq]
  push_cast at this ⊢
  field_simp
  linarith

/-- The recurrence upwards amplifies the errors by less than 5/2 for an order. -/
theorem upSeq_error {x y0 y1 e : ℝ} (hx : 0 < x) (h0 : |y0 - J 0 x| ≤ e) (h1 : |y1 - J 1 x| ≤ e) : ∀ n : Nat, (n : ℝ) < x →
    |upSeq (-1) (2 / x) y0 y1 n - J n x| ≤ (5 / 2) ^ n * e ∧ |upSeq (-1) (2 / x) y0 y1 (n + 1) - J (n + 1) x| ≤ (5 / 2) ^ (n + 1) * e
  | 0, _ => by
    have he : 0 ≤ e := (abs_nonneg _).trans h0
    refine ⟨by simpa [upSeq] using h0, ?_⟩
    show |y1 - J 1 x| ≤ _
    linarith
  | n + 1, hn => by
    obtain ⟨ih0, ih1⟩ := upSeq_error hx h0 h1 n (lt_trans (by push_cast; linarith) hn)
    have he : 0 ≤ e := (abs_nonneg _).trans h0
    refine ⟨ih1, ?_⟩
    rw [show n + 1 + 1 = n + 2 by omega, J_recurrence n hx.ne', upSeq]
    have hc : ((n + 1 : ℕ) : ℝ) * (2 / x) ≤ 2 := by
      rw [mul_div_assoc', div_le_iff₀ hx]; linarith
    have hc0 : 0 ≤ ((n + 1 : ℕ) : ℝ) * (2 / x) := by positivity
    generalize ((n + 1 : ℕ) : ℝ) = m at *
    rw [show m * (2 / x) * upSeq (-1) (2 / x) y0 y1 (n + 1) + -1 * upSeq (-1) (2 / x) y0 y1 n - (2 * m / x * J (n + 1) x - J n x) =
      m * (2 / x) * (upSeq (-1) (2 / x) y0 y1 (n + 1) - J (n + 1) x) + -(upSeq (-1) (2 / x) y0 y1 n - J n x) by ring]
    refine (abs_add_le _ _).trans ?_
    rw [abs_neg, abs_mul, abs_of_nonneg hc0]
    have := mul_le_mul hc ih1 (abs_nonneg _) (by norm_num)
    have hp : 0 ≤ (5 / 2 : ℝ) ^ n * e := by positivity
    rw [pow_add] at this ih1 ⊢
    nlinarith

/-- **`zBesselJ` below the argument**: at most 1e-14 for the orders 0 and 1, and 5/2 times as much for every further order. -/
theorem zBesselJ_accurate_partial {tol x : ℝ} (hx : 0 < x) (h : x < 25 / 2) (htol : tol ≤ x) (n : Nat) (hn : (n : ℝ) < x) :
    ∃ y, zBesselJ tol n x = .ok y ∧ |y - J n x| ≤ (5 / 2) ^ n * (1 / 100000000000000) := by
  obtain ⟨y0, y1, e0, e1, hy⟩ := zBesselJ_upward hx htol n hn
  obtain ⟨z0, f0, d0⟩ := zBesselJ0_accurate_partial (x := x) (by rwa [abs_of_pos hx])
  obtain ⟨z1, f1, d1⟩ := zBesselJ1_accurate_partial (x := x) (by rwa [abs_of_pos hx])
  rw [e0] at f0; rw [e1] at f1
  cases f0; cases f1
  exact ⟨_, hy, (upSeq_error hx d0 d1 n hn).1⟩

end Zm.Bessel
