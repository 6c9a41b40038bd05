import Verif.Props.BesselJ

/-! # Accuracy of `zBesselI0`, `zBesselI1` and `zBesselI` -/

set_option linter.unusedSectionVars false

namespace Zm.Bessel
open Zm Finset

/-! ## The tables: errors relative to the values at the left ends -/

set_option maxRecDepth 100000

theorem I0a_close : ∀ k : Nat, k < 5 → dist (ser 1 0 4 0 26) (k + 1/2) (row tI0a (13 * k) 13) (k + 1/2) (1/2) + tailQ 0 26 (289/16) ≤
    1 / 50000000000000 * evQ (ser 1 0 4 0 26) k := by decide +kernel

theorem I0b_close : ∀ k : Nat, k < 5 → dist (inter (ser 1 0 (1/4) 0 36)) (k + 8 + 1/2) (row tI0b (14 * k) 14) (1/2) (1/2) + tailQ 0 36 (625/16) ≤
    1 / 50000000000000 * evQ (ser 1 0 (1/4) 0 36) ((k + 8) * (k + 8)) := by decide +kernel

theorem I1a_close : ∀ k : Nat, k < 5 → dist (half (ser 1 1 4 0 26)) (k + 1/2) (row tI1a (12 * k) 12) (k + 1/2) (1/2) + tailQ 1 26 (289/16) / 2 ≤
    1 / 50000000000000 * (evQ (ser 1 1 4 0 26) k / 2) := by decide +kernel

theorem I1b_close : ∀ k : Nat, k < 5 → dist (0 :: inter (half (ser 1 1 (1/4) 0 36))) (k + 8 + 1/2) (row tI1b (14 * k) 14) (1/2) (1/2) + 25 / 4 * tailQ 1 36 (625/16) ≤
    1 / 50000000000000 * ((k + 8) / 2 * evQ (ser 1 1 (1/4) 0 36) ((k + 8) * (k + 8))) := by decide +kernel

theorem tail_nonneg : 0 ≤ tailQ 1 36 (625/16) := by decide +kernel

theorem ser_nonneg {n : Nat} {lam : ℚ} (hl : 0 ≤ lam) : ∀ (N k : Nat), ∀ a ∈ ser 1 n lam k N, 0 ≤ a
  | 0, k, a, ha => by simp [ser] at ha
  | N + 1, k, a, ha => by
    rw [ser] at ha
    rcases List.mem_cons.mp ha with h | h
    · rw [h]; unfold cf; positivity
    · exact ser_nonneg hl N (k + 1) a h

theorem ev_ser_mono (n N : Nat) {lam : ℚ} (hl : 0 ≤ lam) {x y : ℝ} (hx : 0 ≤ x) (hxy : x ≤ y) : 0 ≤ ev (ser 1 n lam 0 N) x ∧ ev (ser 1 n lam 0 N) x ≤ ev (ser 1 n lam 0 N) y :=
  ev_mono _ (ser_nonneg hl N 0) hx hxy

/-- The first terms are less than the sum. -/
theorem series_le (n N : Nat) {x : ℝ} (hx : 0 ≤ x) {lam : ℚ} {t : ℝ} (ht : lam * t = x ^ 2 / 4) : (x / 2) ^ n * ev (ser 1 n lam 0 N) t ≤ I n x := by
  have e : (x / 2) ^ n * ev (ser 1 n lam 0 N) t = ∑ k ∈ range N, (cf 1 n k : ℝ) * (x / 2) ^ (2 * k + n) := by
    rw [ev_ser0, ht, Finset.mul_sum]
    refine Finset.sum_congr rfl fun k _ => ?_
    rw [pow_add, pow_mul, div_pow x 2 2]; norm_num; ring
  rw [e, I_eq]
  refine (summable (by norm_num) n x).sum_le_tsum _ fun k _ => ?_
  have : (0 : ℚ) ≤ cf 1 n k := by unfold cf; positivity
  have : (0 : ℝ) ≤ cf 1 n k := by exact_mod_cast this
  positivity

/-- The bound of the tables, 2e-14. -/
theorem eps_cast : ((1 / 50000000000000 : ℚ) : ℝ) = 1 / 50000000000000 := by norm_num

theorem rel0 {A Q P d t v : ℝ} (a1 : |A - Q| ≤ t) (a2 : |Q - P| ≤ d) (a3 : d + t ≤ 1 / 50000000000000 * v) (a5 : v ≤ Q) (a4 : Q ≤ A) : |P - A| ≤ 1 / 50000000000000 * A := by
  refine (via a1 a2).trans ?_
  linarith

theorem rel1 {A q p z d t v : ℝ} (hz : 0 ≤ z) (a1 : |A - (z / 2) ^ 1 * q| ≤ |z / 2| ^ 1 * t) (a2 : |q / 2 - p| ≤ d) (a3 : d + t / 2 ≤ 1 / 50000000000000 * (v / 2)) (a5 : v ≤ q)
    (a4 : (z / 2) ^ 1 * q ≤ A) : |p * z - A| ≤ 1 / 50000000000000 * A := by
  refine (via1 hz a1 a2).trans ?_
  rw [pow_one] at a4
  nlinarith

theorem rel1' {A q P z d t v c : ℝ} (hz : 0 ≤ z) (hz' : z < 25 / 2) (ht : 0 ≤ t) (a1 : |A - (z / 2) ^ 1 * q| ≤ |z / 2| ^ 1 * t) (a2 : |z * (q / 2) - P| ≤ d)
    (a3 : d + 25 / 4 * t ≤ 1 / 50000000000000 * (c / 2 * v)) (hc : c ≤ z) (hv : 0 ≤ v) (a5 : v ≤ q) (a4 : (z / 2) ^ 1 * q ≤ A) : |P - A| ≤ 1 / 50000000000000 * A := by
  rw [show z * (q / 2) = (z / 2) ^ 1 * q by ring] at a2
  refine (via a1 a2).trans ?_
  rw [pow_one, abs_of_nonneg (by positivity : 0 ≤ z / 2)]
  rw [pow_one] at a4
  have a6 : c / 2 * v ≤ z / 2 * q := mul_le_mul (by linarith) a5 hv (by positivity)
  have a9 : z / 2 * t ≤ 25 / 4 * t := mul_le_mul_of_nonneg_right (by linarith) ht
  linarith

theorem I_pos (n : Nat) {x : ℝ} (hx : 0 < x) : 0 < I n x := by
  refine lt_of_lt_of_le ?_ (series_le n 1 hx.le (lam := 1/4) (t := x * x) (by push_cast; ring))
  have : (0 : ℚ) < cf 1 n 0 := by
    unfold cf
    have := Nat.factorial_pos (n + 0)
    positivity
  have : (0 : ℝ) < cf 1 n 0 := by exact_mod_cast this
  simp only [ser, ev_cons, ev_nil]
  push_cast
  rw [pow_zero, mul_one, mul_zero, add_zero]
  positivity

/-- **`zBesselI0` is accurate to 2e-14 of the value** below 12.5. -/
theorem zBesselI0_accurate_partial {x : ℝ} (h : |x| < 25 / 2) : ∃ y, zBesselI0 x = .ok y ∧ |y - I 0 x| ≤ 1 / 50000000000000 * I 0 x := by
  have ei : I 0 x = I 0 |x| := by rw [I_eq, I_eq, B_abs0]
  rw [ei]
  unfold zBesselI0
  dsimp only
  have h0 := abs_nonneg x
  generalize |x| = z at *
  by_cases h2 : z < 17 / 2
  · rw [if_pos h2]
    obtain ⟨h3, h4⟩ := sixteenth h0 h2
    obtain ⟨k, k1, k2, k3, k4⟩ := toInt_nat (t := z * z * (1 / 16)) 0 5 (by simpa using h3) (by simpa using h4)
    rw [k2, brec_int tI0a _ 13 (by omega) (by rw [len_I0a]; push_cast; omega) (by omega) _]
    refine ⟨_, rfl, ?_⟩
    rw [show (((k : Int) + (0 : ℕ)) * 13).toNat = 13 * k by omega]
    push_cast at k3 k4 ⊢
    have a5 := (ev_ser_mono 0 26 (lam := 4) (by norm_num) (x := (k : ℝ)) (y := z * z * (1 / 16)) (by positivity) (by linarith)).2
    have hs : |z * z * (1 / 16) - k - 1 / 2| ≤ ((1 / 2 : ℚ) : ℝ) := by push_cast; rw [abs_le]; constructor <;> linarith
    have a1 := series_tail (σ := 1) (by norm_num) 0 26 (x := z) (U := 289/16) (by push_cast; nlinarith) (by norm_num) (lam := 4) (t := z * z * (1 / 16)) (by push_cast; ring)
    have a4 := series_le 0 26 h0 (lam := 4) (t := z * z * (1 / 16)) (by push_cast; ring)
    have a2 := close (h := 1/2) (by norm_num) (ser 1 0 4 0 26) (k + 1/2) (row tI0a (13 * k) 13) (k + 1/2) _ hs
    have a3 := Rat.cast_le (K := ℝ).mpr (I0a_close k k1)
    rw [pow_zero, one_mul] at a4
    rw [pow_zero, pow_zero, one_mul, one_mul, ← I_eq] at a1
    rw [Rat.cast_add, Rat.cast_mul, evQ_cast, eps_cast, Rat.cast_natCast] at a3
    rw [show z * z * (1 / 16) - k - 1 / 2 + ((k + 1 / 2 : ℚ) : ℝ) = z * z * (1 / 16) by push_cast; ring] at a2
    exact rel0 a1 a2 a3 a5 a4
  rw [if_neg h2, if_pos h]
  obtain ⟨k, k1, k2, k3, k4⟩ := toInt_nat (t := z) 8 5 (by push_cast; linarith) (by push_cast; linarith)
  rw [k2, brec_int tI0b _ 14 (by omega) (by rw [len_I0b]; push_cast; omega) (by omega) _]
  refine ⟨_, rfl, ?_⟩
  rw [show (((k : Int) + (8 : ℕ) - 8) * 14).toNat = 14 * k by omega]
  push_cast at k3 k4 ⊢
  have a5 := (ev_ser_mono 0 36 (lam := 1/4) (by norm_num) (x := ((k + 8) * (k + 8) : ℝ)) (y := z * z) (by positivity) (by nlinarith)).2
  have hs : |z - (k + 8) - 1 / 2| ≤ ((1 / 2 : ℚ) : ℝ) := by push_cast; rw [abs_le]; constructor <;> linarith
  have a1 := series_tail (σ := 1) (by norm_num) 0 36 (x := z) (U := 625/16) (by push_cast; nlinarith) (by norm_num) (lam := 1/4) (t := z * z) (by push_cast; ring)
  have a4 := series_le 0 36 h0 (lam := 1/4) (t := z * z) (by push_cast; ring)
  have a2 := close (h := 1/2) (by norm_num) (inter (ser 1 0 (1/4) 0 36)) (k + 8 + 1/2) (row tI0b (14 * k) 14) (1/2) _ hs
  have a3 := Rat.cast_le (K := ℝ).mpr (I0b_close k k1)
  rw [pow_zero, one_mul] at a4
  rw [pow_zero, pow_zero, one_mul, one_mul, ← I_eq] at a1
  rw [Rat.cast_add, Rat.cast_mul, evQ_cast, eps_cast, show (((k + 8) * (k + 8) : ℚ) : ℝ) = (k + 8) * (k + 8) by push_cast; ring] at a3
  rw [show z - (k + 8) - 1 / 2 + ((k + 8 + 1 / 2 : ℚ) : ℝ) = z by push_cast; ring, show z - (k + 8) - 1 / 2 + ((1 / 2 : ℚ) : ℝ) = z - (k + 8) by push_cast; ring, ev_inter] at a2
  exact rel0 a1 a2 a3 a5 a4

theorem besselI1_accurate {z : ℝ} (h0 : 0 ≤ z) (h : z < 25 / 2) : ∃ y, besselI1 z = .ok y ∧ |y - I 1 z| ≤ 1 / 50000000000000 * I 1 z := by
  unfold besselI1
  dsimp only
  by_cases h2 : z < 17 / 2
  · rw [if_pos h2]
    obtain ⟨h3, h4⟩ := sixteenth h0 h2
    obtain ⟨k, k1, k2, k3, k4⟩ := toInt_nat (t := z * z * (1 / 16)) 0 5 (by simpa using h3) (by simpa using h4)
    rw [k2, brec_int tI1a _ 12 (by omega) (by rw [len_I1a]; push_cast; omega) (by omega) _]
    refine ⟨_, rfl, ?_⟩
    rw [show (((k : Int) + (0 : ℕ)) * 12).toNat = 12 * k by omega]
    push_cast at k3 k4 ⊢
    have a5 := (ev_ser_mono 1 26 (lam := 4) (by norm_num) (x := (k : ℝ)) (y := z * z * (1 / 16)) (by positivity) (by linarith)).2
    have hs : |z * z * (1 / 16) - k - 1 / 2| ≤ ((1 / 2 : ℚ) : ℝ) := by push_cast; rw [abs_le]; constructor <;> linarith
    have a1 := series_tail (σ := 1) (by norm_num) 1 26 (x := z) (U := 289/16) (by push_cast; nlinarith) (by norm_num) (lam := 4) (t := z * z * (1 / 16)) (by push_cast; ring)
    have a4 := series_le 1 26 h0 (lam := 4) (t := z * z * (1 / 16)) (by push_cast; ring)
    have a2 := close (h := 1/2) (by norm_num) (half (ser 1 1 4 0 26)) (k + 1/2) (row tI1a (12 * k) 12) (k + 1/2) _ hs
    have a3 := Rat.cast_le (K := ℝ).mpr (I1a_close k k1)
    rw [← I_eq] at a1
    rw [Rat.cast_add, Rat.cast_mul, eps_cast, Rat.cast_div, Rat.cast_div, Rat.cast_ofNat, evQ_cast, Rat.cast_natCast] at a3
    rw [show z * z * (1 / 16) - k - 1 / 2 + ((k + 1 / 2 : ℚ) : ℝ) = z * z * (1 / 16) by push_cast; ring, ev_half] at a2
    exact rel1 h0 a1 a2 a3 a5 a4
  rw [if_neg h2, if_pos h]
  obtain ⟨k, k1, k2, k3, k4⟩ := toInt_nat (t := z) 8 5 (by push_cast; linarith) (by push_cast; linarith)
  rw [k2, brec_int tI1b _ 14 (by omega) (by rw [len_I1b]; push_cast; omega) (by omega) _]
  refine ⟨_, rfl, ?_⟩
  rw [show (((k : Int) + (8 : ℕ) - 8) * 14).toNat = 14 * k by omega]
  push_cast at k3 k4 ⊢
  have a5 := ev_ser_mono 1 36 (lam := 1/4) (by norm_num) (x := ((k + 8) * (k + 8) : ℝ)) (y := z * z) (by positivity) (by nlinarith)
  have hs : |z - (k + 8) - 1 / 2| ≤ ((1 / 2 : ℚ) : ℝ) := by push_cast; rw [abs_le]; constructor <;> linarith
  have a1 := series_tail (σ := 1) (by norm_num) 1 36 (x := z) (U := 625/16) (by push_cast; nlinarith) (by norm_num) (lam := 1/4) (t := z * z) (by push_cast; ring)
  have a4 := series_le 1 36 h0 (lam := 1/4) (t := z * z) (by push_cast; ring)
  have a2 := close (h := 1/2) (by norm_num) (0 :: inter (half (ser 1 1 (1/4) 0 36))) (k + 8 + 1/2) (row tI1b (14 * k) 14) (1/2) _ hs
  have a3 := Rat.cast_le (K := ℝ).mpr (I1b_close k k1)
  have a7 : (0 : ℝ) ≤ tailQ 1 36 (625/16) := Rat.cast_nonneg.mpr tail_nonneg
  rw [← I_eq] at a1
  rw [Rat.cast_add, Rat.cast_mul, Rat.cast_mul, Rat.cast_mul, evQ_cast, eps_cast, show (((k + 8) * (k + 8) : ℚ) : ℝ) = (k + 8) * (k + 8) by push_cast; ring,
    show (((k + 8) / 2 : ℚ) : ℝ) = (k + 8) / 2 by push_cast; ring, show ((25 / 4 : ℚ) : ℝ) = 25 / 4 by norm_num] at a3
  rw [show z - (k + 8) - 1 / 2 + ((k + 8 + 1 / 2 : ℚ) : ℝ) = z by push_cast; ring, show z - (k + 8) - 1 / 2 + ((1 / 2 : ℚ) : ℝ) = z - (k + 8) by push_cast; ring,
    ev_cons, ev_inter, ev_half, Rat.cast_zero, zero_add] at a2
  exact rel1' h0 h a7 a1 a2 a3 (by clear * - k3; linarith) a5.1 a5.2 a4

/-- **`zBesselI1` is accurate to 2e-14 of the value** below 12.5. -/
theorem zBesselI1_accurate_partial {x : ℝ} (h : |x| < 25 / 2) : ∃ y, zBesselI1 x = .ok y ∧ |y - I 1 x| ≤ 1 / 50000000000000 * |I 1 x| := by
  obtain ⟨l1, l2⟩ := abs_lt.mp h
  unfold zBesselI1
  by_cases hx : x < 0
  · rw [if_pos hx]
    obtain ⟨y, hy, hd⟩ := besselI1_accurate (z := -x) (by linarith) (by linarith)
    refine ⟨-y, by rw [hy]; rfl, ?_⟩
    rw [I_eq, B_neg, ← I_eq] at hd
    rw [← abs_neg]
    have e : |I 1 x| = (-1) ^ 1 * I 1 x := by
      have := I_pos 1 (x := -x) (by linarith)
      rw [I_eq, B_neg, ← I_eq] at this
      rw [abs_of_neg (by linarith)]; ring
    rw [e]
    convert hd using 2
    ring
  · rw [if_neg hx]
    obtain ⟨y, hy, hd⟩ := besselI1_accurate (not_lt.mp hx) l2
    exact ⟨y, hy, hd.trans (mul_le_mul_of_nonneg_left (le_abs_self _) (by norm_num))⟩

end Zm.Bessel
