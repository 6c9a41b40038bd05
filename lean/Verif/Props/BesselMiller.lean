import Verif.Props.BesselI
import Mathlib.Tactic.LinearCombination

/-! # Miller's method in `zBesselI`: its error, and where it fails -/

set_option linter.unusedSectionVars false

namespace Zm.Bessel
open Zm Finset

theorem I_step (n : Nat) {x : ℝ} (hx : x ≠ 0) : I n x = (n + 1 : ℕ) * (2 / x) * I (n + 1) x + I (n + 2) x := by
  rw [I_recurrence n hx]; ring

/-- The orders of equal parity decrease. -/
theorem I_lt (n : Nat) {x : ℝ} (hx : 0 < x) : I (n + 2) x < I n x := by
  have h1 := I_pos (n + 1) hx
  rw [I_step n hx.ne']
  have : 0 < ((n + 1 : ℕ) : ℝ) * (2 / x) * I (n + 1) x := by positivity
  linarith

/-- The determinant of the two solutions of the recurrence keeps its magnitude. -/
theorem casorati {x : ℝ} (hx : 0 < x) {m : Nat} {p : Nat → ℝ} (h : IsDown 1 (2 / x) m p) : ∀ j, j ≤ m →
    p (m - j) * I (m - j + 1) x - p (m - j + 1) * I (m - j) x = (-1) ^ j * I (m + 1) x
  | 0, _ => by rw [Nat.sub_zero, h.one, h.zero]; ring
  | j + 1, hj => by
    have ih := casorati hx h j (by omega)
    have hs := h.step (m - j) (by omega) (by omega)
    have hi := I_step (m - (j + 1)) hx.ne'
    rw [show m - j - 1 = m - (j + 1) by omega] at hs
    rw [show m - (j + 1) + 1 = m - j by omega, show m - (j + 1) + 2 = m - j + 1 by omega] at hi
    rw [show m - (j + 1) + 1 = m - j by omega, hs, hi, pow_succ]
    linear_combination (-1) * ih

/-- The quotient of the two solutions. -/
noncomputable def quo (p : Nat → ℝ) (x : ℝ) (k : Nat) : ℝ := p k / I k x

noncomputable def alt (m : Nat) (x : ℝ) (k : Nat) : ℝ := I (m + 1) x / (I k x * I (k + 1) x)

theorem alt_mono (m : Nat) {x : ℝ} (hx : 0 < x) (k : Nat) : alt m x k ≤ alt m x (k + 1) := by
  unfold alt
  have h0 := I_pos k hx
  have h1 := I_pos (k + 1) hx
  have h2 := I_pos (k + 2) hx
  refine div_le_div_of_nonneg_left (I_pos (m + 1) hx).le (by positivity) ?_
  rw [mul_comm (I k x)]
  exact mul_le_mul_of_nonneg_left (I_lt k hx).le h1.le

theorem quo_step {x : ℝ} (hx : 0 < x) {m : Nat} {p : Nat → ℝ} (h : IsDown 1 (2 / x) m p) (k : Nat) (hk : k ≤ m) : quo p x k - quo p x (k + 1) = (-1) ^ (m + k) * alt m x k := by
  have h0 := (I_pos k hx).ne'
  have h1 := (I_pos (k + 1) hx).ne'
  have hc := casorati hx h (m - k) (by omega)
  rw [show m - (m - k) = k by omega] at hc
  have e : (-1 : ℝ) ^ (m + k) = (-1) ^ (m - k) := by
    rw [show m + k = m - k + 2 * k by omega, pow_add, pow_mul]; norm_num
  unfold quo alt
  rw [e, mul_div_assoc', ← hc]
  field_simp

/-- Alternating sums of growing terms are bounded by the last. -/
theorem quo_diff {x : ℝ} (hx : 0 < x) {m : Nat} {p : Nat → ℝ} (h : IsDown 1 (2 / x) m p) : ∀ n, n ≤ m →
    0 ≤ (-1) ^ (m + n) * (quo p x 0 - quo p x (n + 1)) ∧ (-1) ^ (m + n) * (quo p x 0 - quo p x (n + 1)) ≤ alt m x n
  | 0, _ => by
    have hp : 0 ≤ alt m x 0 := by
      unfold alt
      have h0 := I_pos 0 hx
      have h1 := I_pos (0 + 1) hx
      have h2 := I_pos (m + 1) hx
      positivity
    rw [quo_step hx h 0 (Nat.zero_le _), ← mul_assoc, ← mul_pow]
    norm_num
    exact hp
  | n + 1, hn => by
    obtain ⟨ih1, ih2⟩ := quo_diff hx h n (by omega)
    have hs := quo_step hx h (n + 1) hn
    have hm := alt_mono m hx n
    have e : (-1) ^ (m + (n + 1)) * (quo p x 0 - quo p x (n + 1 + 1)) = alt m x (n + 1) - (-1) ^ (m + n) * (quo p x 0 - quo p x (n + 1)) := by
      rw [show quo p x 0 - quo p x (n + 1 + 1) = (quo p x 0 - quo p x (n + 1)) + (quo p x (n + 1) - quo p x (n + 1 + 1)) by ring, hs, mul_add, ← mul_assoc ((-1 : ℝ) ^ (m + (n + 1))), ← mul_pow]
      norm_num
      rw [← Nat.add_assoc, pow_succ]; ring
    rw [e]
    constructor <;> linarith

/-- The quotient at order zero is not small. -/
theorem quo_zero {x : ℝ} (hx : 0 < x) {m : Nat} (hm : 1 ≤ m) {p : Nat → ℝ} (h : IsDown 1 (2 / x) m p) : 2 * m / (x * I (m - 1) x) ≤ quo p x 0 := by
  obtain ⟨j, rfl⟩ : ∃ j, m = j + 1 := ⟨m - 1, by omega⟩
  obtain ⟨_, h2⟩ := quo_diff hx h j (by omega)
  have e : (-1 : ℝ) ^ (j + 1 + j) = -1 := by rw [show j + 1 + j = 2 * j + 1 by omega, pow_succ, pow_mul]; norm_num
  rw [e] at h2
  have h0 := I_pos j hx
  have h1 := I_pos (j + 1) hx
  have hi := I_step j hx.ne'
  have hq : quo p x (j + 1) = 1 / I (j + 1) x := by unfold quo; rw [h.one]
  have ha : alt (j + 1) x j = I (j + 2) x / (I j x * I (j + 1) x) := rfl
  have e2 : 1 / I (j + 1) x - I (j + 2) x / (I j x * I (j + 1) x) = 2 * (j + 1 : ℕ) / (x * I j x) := by
    rw [eq_sub_of_add_eq' hi.symm |>.symm.symm]
    field_simp
    ring
  rw [Nat.add_sub_cancel, ← e2]
  linarith

/-- **The error of Miller's method**, relative to the Bessel function. -/
theorem miller_error {x : ℝ} (hx : 0 < x) {m n : Nat} (hn : 1 ≤ n) (hnm : n ≤ m) {p : Nat → ℝ} (h : IsDown 1 (2 / x) m p) :
    |p n * (I 0 x / p 0) - I n x| ≤ I (m + 1) x / I (n - 1) x * (x * I (m - 1) x / (2 * m)) := by
  obtain ⟨k, rfl⟩ : ∃ k, n = k + 1 := ⟨n - 1, by omega⟩
  obtain ⟨d1, d2⟩ := quo_diff hx h k (by omega)
  have q0 := quo_zero hx (by omega) h
  have p0 := h.pos (by positivity) 0 (Nat.zero_le _)
  have hk := I_pos k hx
  have hk1 := I_pos (k + 1) hx
  have hi0 := I_pos 0 hx
  have hm0 := I_pos (m - 1) hx
  have hm1 := I_pos (m + 1) hx
  have hmp : (0 : ℝ) < m := by exact_mod_cast (by omega : 0 < m)
  have hq0 : 0 < quo p x 0 := by unfold quo; positivity
  have hd : |quo p x (k + 1) - quo p x 0| ≤ alt m x k := by
    rw [abs_sub_comm, abs_le]
    rcases neg_one_pow_eq_or ℝ (m + k) with e | e <;> rw [e] at d1 d2 <;> constructor <;> linarith
  have e : p (k + 1) * (I 0 x / p 0) - I (k + 1) x = I (k + 1) x * ((quo p x (k + 1) - quo p x 0) / quo p x 0) := by
    unfold quo
    field_simp
  rw [e, abs_mul, abs_div, abs_of_pos hk1, abs_of_pos hq0, Nat.add_sub_cancel]
  have hb : |quo p x (k + 1) - quo p x 0| / quo p x 0 ≤ alt m x k * (x * I (m - 1) x / (2 * m)) := by
    rw [div_le_iff₀ hq0]
    refine hd.trans ?_
    have : 1 ≤ x * I (m - 1) x / (2 * m) * quo p x 0 := by
      have := mul_le_mul_of_nonneg_left q0 (by positivity : 0 ≤ x * I (m - 1) x / (2 * m))
      refine le_trans (le_of_eq ?_) this
      field_simp
    have ha : 0 ≤ alt m x k := by unfold alt; positivity
    rw [mul_assoc]
    exact le_mul_of_one_le_right ha this
  refine (mul_le_mul_of_nonneg_left hb hk1.le).trans (le_of_eq ?_)
  unfold alt
  field_simp

theorem fact_le (n j : Nat) : ∀ k, (n + k).factorial * (n + j).factorial ≤ n.factorial * (n + j + k).factorial
  | 0 => le_rfl
  | k + 1 => by
    have ih := fact_le n j k
    rw [← Nat.add_assoc, ← Nat.add_assoc, Nat.factorial_succ, Nat.factorial_succ]
    calc (n + k + 1) * (n + k).factorial * (n + j).factorial = (n + k + 1) * ((n + k).factorial * (n + j).factorial) := by ring
      _ ≤ (n + j + k + 1) * (n.factorial * (n + j + k).factorial) := Nat.mul_le_mul (by omega) ih
      _ = _ := by ring

/-- The Bessel functions of higher orders are smaller. -/
theorem I_order (n j : Nat) {x : ℝ} (hx : 0 < x) : I (n + j) x ≤ (x / 2) ^ j * n.factorial / (n + j).factorial * I n x := by
  rw [I_eq, I_eq]
  unfold B
  rw [← tsum_mul_left]
  refine Summable.tsum_le_tsum (fun k => ?_) (summable (by norm_num) _ x) ((summable (by norm_num) n x).mul_left _)
  unfold cf
  push_cast
  rw [one_pow, show 2 * k + (n + j) = j + (2 * k + n) by omega, pow_add (x / 2) j]
  have f := fact_le n j k
  have p1 : (0 : ℝ) < k.factorial := by exact_mod_cast Nat.factorial_pos k
  have p2 : (0 : ℝ) < (n + j).factorial := by exact_mod_cast Nat.factorial_pos _
  have p3 : (0 : ℝ) < (n + k).factorial := by exact_mod_cast Nat.factorial_pos _
  have p4 : (0 : ℝ) < (n + j + k).factorial := by exact_mod_cast Nat.factorial_pos _
  have f' : ((n + k).factorial : ℝ) * (n + j).factorial ≤ n.factorial * (n + j + k).factorial := by exact_mod_cast f
  have key : 1 / ((k.factorial : ℝ) * (n + j + k).factorial) ≤ n.factorial / (n + j).factorial * (1 / (k.factorial * (n + k).factorial)) := by
    rw [div_mul_div_comm, div_le_div_iff₀ (by positivity) (by positivity)]
    nlinarith
  calc 1 / ((k.factorial : ℝ) * (n + j + k).factorial) * ((x / 2) ^ j * (x / 2) ^ (2 * k + n)) ≤
      n.factorial / (n + j).factorial * (1 / (k.factorial * (n + k).factorial)) * ((x / 2) ^ j * (x / 2) ^ (2 * k + n)) := mul_le_mul_of_nonneg_right key (by positivity)
    _ = _ := by ring

/-- A bound of the error of Miller's method from order `m`. -/
noncomputable def millerErr (n m : Nat) (x : ℝ) : ℝ := (x / 2) ^ (2 * (m - n + 1)) * (n.factorial * (n - 1).factorial) / ((m + 1).factorial * m.factorial)

theorem miller_bound {x : ℝ} (hx : 0 < x) {m n : Nat} (hn : 1 ≤ n) (hnm : n ≤ m) {p : Nat → ℝ} (h : IsDown 1 (2 / x) m p) :
    |p n * (I 0 x / p 0) - I n x| ≤ millerErr n m x * I n x := by
  refine (miller_error hx hn hnm h).trans ?_
  have h1 := I_order n (m + 1 - n) hx
  have h2 := I_order (n - 1) (m - n) hx
  rw [show n + (m + 1 - n) = m + 1 by omega] at h1
  rw [show n - 1 + (m - n) = m - 1 by omega] at h2
  have hk := I_pos (n - 1) hx
  have hn0 := I_pos n hx
  have hm0 := I_pos (m - 1) hx
  have hmp : (0 : ℝ) < m := by exact_mod_cast (by omega : 0 < m)
  have p1 : (0 : ℝ) < (m - 1).factorial := by exact_mod_cast Nat.factorial_pos _
  have p2 : (0 : ℝ) < (m + 1).factorial := by exact_mod_cast Nat.factorial_pos _
  have e3 : (m.factorial : ℝ) = m * (m - 1).factorial := by
    obtain ⟨j, rfl⟩ : ∃ j, m = j + 1 := ⟨m - 1, by omega⟩
    rw [Nat.factorial_succ, Nat.add_sub_cancel]; push_cast; ring
  calc I (m + 1) x / I (n - 1) x * (x * I (m - 1) x / (2 * m)) ≤
      ((x / 2) ^ (m + 1 - n) * n.factorial / (m + 1).factorial * I n x) / I (n - 1) x * (x * ((x / 2) ^ (m - n) * (n - 1).factorial / (m - 1).factorial * I (n - 1) x) / (2 * m)) := by
        gcongr
    _ = _ := by
      unfold millerErr
      rw [e3, show 2 * (m - n + 1) = (m - n) + (m - n) + 1 + 1 by omega, show m + 1 - n = m - n + 1 by omega, pow_succ, pow_succ, pow_succ, pow_add]
      field_simp

theorem millerErr_mono (n m : Nat) {x y : ℝ} (hx : 0 ≤ x) (hxy : x ≤ y) : millerErr n m x ≤ millerErr n m y := by
  unfold millerErr
  gcongr

/-- Below the order the error is tiny. -/
theorem millerErr_le {n m : Nat} (hn : 1 ≤ n) (hnm : n ≤ m) {x : ℝ} (hx : 0 ≤ x) (hxn : x ≤ n) : millerErr n m x ≤ (1 / 4) ^ (m - n + 1) := by
  have f1 : n.factorial * (n + 1) ^ (m + 1 - n) ≤ (m + 1).factorial := by
    have := Nat.factorial_mul_pow_le_factorial (m := n) (n := m + 1 - n)
    rwa [show n + (m + 1 - n) = m + 1 by omega] at this
  have f2 : (n - 1).factorial * n ^ (m + 1 - n) ≤ m.factorial := by
    have := Nat.factorial_mul_pow_le_factorial (m := n - 1) (n := m + 1 - n)
    rwa [show n - 1 + (m + 1 - n) = m by omega, show n - 1 + 1 = n by omega] at this
  have f3 : n.factorial * (n - 1).factorial * (n ^ (m - n + 1) * n ^ (m - n + 1)) ≤ (m + 1).factorial * m.factorial := by
    rw [show m + 1 - n = m - n + 1 by omega] at f1 f2
    calc _ = (n.factorial * n ^ (m - n + 1)) * ((n - 1).factorial * n ^ (m - n + 1)) := by ring
      _ ≤ _ := Nat.mul_le_mul (le_trans (Nat.mul_le_mul_left _ (Nat.pow_le_pow_left (by omega) _)) f1) f2
  have p2 : (0 : ℝ) < (m + 1).factorial := by exact_mod_cast Nat.factorial_pos _
  have p3 : (0 : ℝ) < m.factorial := by exact_mod_cast Nat.factorial_pos _
  have hnp : (0 : ℝ) < n := by exact_mod_cast hn
  unfold millerErr
  rw [div_le_iff₀ (by positivity)]
  have f4 : ((n.factorial * (n - 1).factorial * (n ^ (m - n + 1) * n ^ (m - n + 1)) : ℕ) : ℝ) ≤ ((m + 1).factorial * m.factorial : ℕ) := by exact_mod_cast f3
  push_cast at f4
  have f5 : (x / 2) ^ (2 * (m - n + 1)) ≤ (1 / 4) ^ (m - n + 1) * ((n : ℝ) ^ (m - n + 1) * n ^ (m - n + 1)) := by
    rw [← mul_pow, ← mul_pow, pow_mul]
    refine pow_le_pow_left₀ (by positivity) ?_ _
    nlinarith
  calc (x / 2) ^ (2 * (m - n + 1)) * ((n.factorial : ℝ) * (n - 1).factorial) ≤ (1 / 4) ^ (m - n + 1) * ((n : ℝ) ^ (m - n + 1) * n ^ (m - n + 1)) * (n.factorial * (n - 1).factorial) :=
        mul_le_mul_of_nonneg_right f5 (by positivity)
    _ = (1 / 4) ^ (m - n + 1) * ((n.factorial : ℝ) * (n - 1).factorial * (n ^ (m - n + 1) * n ^ (m - n + 1))) := by ring
    _ ≤ _ := mul_le_mul_of_nonneg_left f4 (by positivity)

/-- **The error of `zBesselI`** below 12.5, for every order from 2 on: that of the tables and that of Miller's method. -/
theorem zBesselI_error_partial {tol x : ℝ} (hx : 0 < x) (h : x < 25 / 2) (htol : tol ≤ x) (n : Nat) (hn2 : 2 ≤ n) : ∃ y, zBesselI tol n x = .ok y ∧
    |y - I n x| ≤ ((1 + millerErr n (2 * (n + Nat.sqrt (40 * n))) x) / 50000000000000 + millerErr n (2 * (n + Nat.sqrt (40 * n))) x) * I n x := by
  obtain ⟨p, i0, hd, hp, e0, hy⟩ := zBesselI_miller hx htol n hn2
  obtain ⟨z, f0, d0⟩ := zBesselI0_accurate_partial (x := x) (by rwa [abs_of_pos hx])
  rw [e0] at f0
  cases f0
  refine ⟨_, hy, ?_⟩
  have hb := miller_bound hx (by omega) (by omega) hd (n := n)
  generalize millerErr n (2 * (n + Nat.sqrt (40 * n))) x = δ at *
  have hi := I_pos 0 hx
  have hin := I_pos n hx
  have p0 := hp 0 (Nat.zero_le _)
  have e : p n * (i0 / p 0) - I n x = p n * (I 0 x / p 0) * ((i0 - I 0 x) / I 0 x) + (p n * (I 0 x / p 0) - I n x) := by field_simp; ring
  have hr : |p n * (I 0 x / p 0)| ≤ (1 + δ) * I n x := by
    have := abs_le.mp hb
    rw [abs_le]
    constructor
    · have hpn := hp n (by omega)
      have : 0 < p n * (I 0 x / p 0) := by positivity
      have hδ : 0 ≤ δ * I n x := (abs_nonneg _).trans hb
      nlinarith
    · linarith [this.2]
  have hq : |(i0 - I 0 x) / I 0 x| ≤ 1 / 50000000000000 := by
    rw [abs_div, abs_of_pos hi, div_le_iff₀ hi]
    exact d0
  rw [e]
  refine (abs_add_le _ _).trans ?_
  rw [abs_mul]
  have := mul_le_mul hr hq (abs_nonneg _) ((abs_nonneg _).trans hr)
  linarith

set_option maxRecDepth 100000

def millerQ (n m : Nat) (x : ℚ) : ℚ := (x / 2) ^ (2 * (m - n + 1)) * (n.factorial * (n - 1).factorial) / ((m + 1).factorial * m.factorial)

theorem millerQ_small : ∀ n : Nat, n < 8 → 2 ≤ n → millerQ n (2 * (n + Nat.sqrt (40 * n))) 8 ≤ 1 / 200000000000000 := by decide +kernel

theorem quarter_small : (1 / 4 : ℚ) ^ 32 ≤ 1 / 200000000000000 := by decide +kernel

theorem millerErr_small {n : Nat} (hn : 2 ≤ n) {x : ℝ} (hx : 0 ≤ x) (h8 : x ≤ 8) : millerErr n (2 * (n + Nat.sqrt (40 * n))) x ≤ 1 / 200000000000000 := by
  by_cases h : n < 8
  · refine (millerErr_mono n _ hx h8).trans ?_
    have := Rat.cast_le (K := ℝ).mpr (millerQ_small n h hn)
    unfold millerQ at this
    unfold millerErr
    push_cast at this ⊢
    exact this
  · refine (millerErr_le (by omega) (by omega) hx (h8.trans (by exact_mod_cast not_lt.mp h))).trans ?_
    have hs : 17 ≤ Nat.sqrt (40 * n) := by rw [Nat.le_sqrt]; omega
    refine (pow_le_pow_of_le_one (by norm_num) (by norm_num) (by omega : 32 ≤ 2 * (n + Nat.sqrt (40 * n)) - n + 1)).trans ?_
    have := Rat.cast_le (K := ℝ).mpr quarter_small
    push_cast at this
    exact this

/-- **`zBesselI` is accurate to 3e-14 of the value** for arguments up to 8, for every order from 2 on. -/
theorem zBesselI_accurate_partial {tol x : ℝ} (hx : 0 < x) (h : x ≤ 8) (htol : tol ≤ x) (n : Nat) (hn2 : 2 ≤ n) : ∃ y, zBesselI tol n x = .ok y ∧
    |y - I n x| ≤ 3 / 100000000000000 * I n x := by
  obtain ⟨y, hy, hd⟩ := zBesselI_error_partial hx (by linarith) htol n hn2
  refine ⟨y, hy, hd.trans (mul_le_mul_of_nonneg_right ?_ (I_pos n hx).le)⟩
  have := millerErr_small hn2 hx.le h
  linarith

/-! ## Large arguments -/

theorem top_cast (ax : ℚ) (m : Nat) : ∀ j, ((top 1 ax m j : ℚ) : ℝ) = top 1 (ax : ℝ) m j
  | 0 => by simp [top]
  | 1 => by simp [top]
  | j + 2 => by rw [top, top]; push_cast; rw [top_cast ax m (j + 1), top_cast ax m j]

theorem backSeq_cast (ax : ℚ) (m k : Nat) : ((backSeq 1 ax m k : ℚ) : ℝ) = backSeq 1 (ax : ℝ) m k := top_cast ax m _

theorem ratio_300 : backSeq (1 : ℚ) (2 / 300) (2 * (3 + Nat.sqrt (40 * 3))) 3 / backSeq (1 : ℚ) (2 / 300) (2 * (3 + Nat.sqrt (40 * 3))) 0 <
    backSeq (1 : ℚ) (2 / 300) (2 * (5 + Nat.sqrt (40 * 5))) 5 / backSeq (1 : ℚ) (2 / 300) (2 * (5 + Nat.sqrt (40 * 5))) 0 := by decide +kernel

theorem row_I0c : ∀ a ∈ row tI0c 0 9, 0 < a := by decide +kernel

theorem ev_pos (a : ℚ) (c : List ℚ) (h : ∀ b ∈ a :: c, 0 < b) {x : ℝ} (hx : 0 ≤ x) : 0 < ev (a :: c) x := by
  have ha : (0 : ℝ) < a := by exact_mod_cast h a (List.mem_cons_self ..)
  have hc := (ev_mono c (fun b hb => (h b (List.mem_cons_of_mem _ hb)).le) hx le_rfl).1
  rw [ev_cons]
  have := mul_nonneg hx hc
  linarith

theorem zBesselI0_300 : ∃ y, zBesselI0 300 = .ok y ∧ 0 < y := by
  unfold zBesselI0
  dsimp only
  rw [abs_of_pos (by norm_num), if_neg (by norm_num), if_neg (by norm_num), show toInt (60 / 300 : ℝ) = 0 from by
    rw [toInt_nonneg (by norm_num), Int.floor_eq_zero_iff]; constructor <;> norm_num, zero_mul, brec_int tI0c 0 9 le_rfl (by rw [len_I0c]; norm_num) (by omega)]
  refine ⟨_, rfl, ?_⟩
  have hp : 0 < ev (row tI0c (Int.toNat 0) 9) (60 / 300) := ev_pos _ _ row_I0c (by norm_num)
  have : 0 < Real.sqrt (60 / 300) := Real.sqrt_pos.mpr (by norm_num)
  have := Real.exp_pos 300
  positivity

theorem zBesselI_eq {tol x i0 : ℝ} (hx : 0 < x) (htol : tol ≤ x) (n : Nat) (hn2 : 2 ≤ n) (e0 : zBesselI0 x = .ok i0) :
    zBesselI tol n x = .ok (backSeq 1 (2 / x) (2 * (n + Nat.sqrt (40 * n))) n * (i0 / backSeq 1 (2 / x) (2 * (n + Nat.sqrt (40 * n))) 0)) := by
  have hp := (backSeq_isDown (1 : ℝ) (2 / x) (2 * (n + Nat.sqrt (40 * n)))).pos (by positivity)
  unfold zBesselI
  rw [if_neg (by omega), if_neg (by omega), if_neg (by omega), abs_of_pos hx, if_neg (not_lt.mpr htol)]
  dsimp only
  rw [if_neg hx.ne', Int.toNat_natCast, downI_spec _ _ _ (by omega) (by omega)]
  dsimp only
  rw [if_neg (hp 0 (Nat.zero_le _)).ne', e0]
  show Res.ok _ = _
  rw [if_neg (fun h => absurd h.1 (not_lt.mpr hx.le))]

/-- **The number of turns does not depend on the argument, and for large ones it is too small**: the Bessel functions decrease from order 3 to order 5, and what
`zBesselI` gives at 300 increases. -/
theorem zBesselI_large_violated {tol : ℝ} (htol : tol ≤ 300) : ∃ a b, zBesselI tol 3 300 = .ok a ∧ zBesselI tol 5 300 = .ok b ∧ a < b ∧ I 5 300 < I 3 300 := by
  obtain ⟨i0, e0, hp⟩ := zBesselI0_300
  have h3 := zBesselI_eq (tol := tol) (x := 300) (by norm_num) htol 3 (by omega) e0
  have h5 := zBesselI_eq (tol := tol) (x := 300) (by norm_num) htol 5 (by omega) e0
  refine ⟨_, _, h3, h5, ?_, I_lt 3 (by norm_num)⟩
  have hr := Rat.cast_lt (K := ℝ).mpr ratio_300
  rw [Rat.cast_div, Rat.cast_div, backSeq_cast, backSeq_cast, backSeq_cast, backSeq_cast, show ((2 / 300 : ℚ) : ℝ) = 2 / 300 by norm_num] at hr
  have := mul_lt_mul_of_pos_right hr hp
  calc _ = _ * i0 := by rw [mul_div_assoc', div_mul_eq_mul_div]
    _ < _ := this
    _ = _ := by rw [mul_div_assoc', div_mul_eq_mul_div]

/-! ## The theorems apply -/

example : ∃ y, zBesselJ0 (-3) = .ok y ∧ |y - J 0 (-3)| ≤ 1 / 100000000000000 := zBesselJ0_accurate_partial (by norm_num)
example : ∃ y, zBesselJ1 12 = .ok y ∧ |y - J 1 12| ≤ 1 / 100000000000000 := zBesselJ1_accurate_partial (by norm_num)
example : ∃ y, zBesselJ (1 / 1000000000000) (3 : ℕ) 10 = .ok y ∧ |y - J 3 10| ≤ (5 / 2) ^ 3 * (1 / 100000000000000) :=
  zBesselJ_accurate_partial (by norm_num) (by norm_num) (by norm_num) 3 (by norm_num)
example : ∃ y, zBesselI0 (1 / 2) = .ok y ∧ |y - I 0 (1 / 2)| ≤ 1 / 50000000000000 * I 0 (1 / 2) := zBesselI0_accurate_partial (by norm_num)
example : ∃ y, zBesselI1 (-9) = .ok y ∧ |y - I 1 (-9)| ≤ 1 / 50000000000000 * |I 1 (-9)| := zBesselI1_accurate_partial (by norm_num)
example : ∃ y, zBesselI (1 / 1000000000000) (7 : ℕ) 5 = .ok y ∧ |y - I 7 5| ≤ 3 / 100000000000000 * I 7 5 := zBesselI_accurate_partial (by norm_num) (by norm_num) (by norm_num) 7 (by norm_num)
example : ∃ a b, zBesselI (1 / 1000000000000) 3 300 = .ok a ∧ zBesselI (1 / 1000000000000) 5 300 = .ok b ∧ a < b ∧ I 5 300 < I 3 300 := zBesselI_large_violated (by norm_num)

/-- The specification is the classical one: it is 1 at zero for order zero, and 0 for the others. -/
theorem J_zero (n : Nat) : J n 0 = if n = 0 then 1 else 0 := by
  rw [J_eq]
  unfold B
  rw [tsum_eq_single 0 (fun k hk => by rw [zero_div, zero_pow (by omega), mul_zero])]
  by_cases h : n = 0
  · subst h; simp [cf]
  · rw [if_neg h, zero_div, zero_pow (by omega), mul_zero]

end Zm.Bessel
