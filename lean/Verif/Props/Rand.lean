import Verif.Model.Rand
import Mathlib.Algebra.Order.BigOperators.Group.Finset
import Mathlib.Analysis.Complex.ExponentialBounds
import Mathlib.Tactic.Linarith
import Mathlib.Tactic.Positivity
import Mathlib.Tactic.NormNum

/-!
# Random variates

C73: the binomial variate counts and is at most `n`, the normal generator hands out both members of a pair; C97: the ranges of the other variates.
-/

namespace Zm.Rnd
noncomputable section

/-- The number of the draws from `pos` that are below `p`. -/
def below (U : Nat → ℝ) (p : ℝ) (pos n : Nat) : Nat := ((Finset.range n).filter fun i => U (pos + i) < p).card

theorem below_succ (U : Nat → ℝ) (p : ℝ) (pos n : Nat) : below U p pos (n+1) = (if U pos < p then 1 else 0) + below U p (pos+1) n := by
  unfold below
  rw [Finset.card_filter, Finset.card_filter, Finset.sum_range_succ']
  rw [add_comm]
  congr 1
  exact Finset.sum_congr rfl fun i _ => by rw [show pos + (i+1) = pos + 1 + i by omega]

/-- C73: the binomial variate is the number of draws below `p` among `n`, so it lies in `[0,n]`; `n` numbers are used. -/
theorem zRandBinom_spec (U : Nat → ℝ) (p : ℝ) (n pos : Nat) : zRandBinom U p n pos 0 = (below U p pos n, pos + n) ∧ below U p pos n ≤ n := by
  have go : ∀ n pos r, zRandBinom U p n pos r = (r + below U p pos n, pos + n) := by
    intro n
    induction n with
    | zero => intro pos r; simp [zRandBinom, below]
    | succ n ih =>
      intro pos r
      unfold zRandBinom
      rw [ih, below_succ]
      refine Prod.ext ?_ (by show pos + 1 + n = pos + (n + 1); omega)
      show (if U pos < p then r + 1 else r) + below U p (pos+1) n = r + ((if U pos < p then 1 else 0) + below U p (pos+1) n)
      split_ifs <;> omega
  refine ⟨by rw [go]; simp, ?_⟩
  unfold below
  exact (Finset.card_filter_le _ _).trans (by simp)

/-- With `p = 0` and `p = 1` the binomial variate is certain. -/
theorem zRandBinom_certain (U : Nat → ℝ) (n pos : Nat) (hU : ∀ i, 0 ≤ U i ∧ U i < 1) : (zRandBinom U 0 n pos 0).1 = 0 ∧ (zRandBinom U 1 n pos 0).1 = n := by
  rw [(zRandBinom_spec U 0 n pos).1, (zRandBinom_spec U 1 n pos).1]
  constructor
  · show below U 0 pos n = 0
    unfold below
    rw [Finset.card_eq_zero, Finset.filter_eq_empty_iff]
    intro i _; exact not_lt.2 (hU _).1
  · show below U 1 pos n = n
    unfold below
    rw [Finset.filter_true_of_mem (fun i _ => (hU _).2), Finset.card_range]

/-- A sequence of calls of the normal generator: the values and the final state. -/
def ndSeq (U : Nat → ℝ) : Nat → MT → List ℝ
  | 0, _ => []
  | n+1, mt => (zRandND0 U mt).1 :: ndSeq U n (zRandND0 U mt).2

/-- C73: from a fresh state the calls return, for each two draws, both members of Box and Muller's pair. -/
theorem zRandND0_pairs (U : Nat → ℝ) (n pos : Nat) (l : ℝ) :
    ndSeq U (2 * n) ⟨pos, false, l⟩ = (List.range n).flatMap fun i =>
      [Real.sqrt (-2 * Real.log (1 - U (pos + 2*i))) * Real.cos (2 * Real.pi * U (pos + 2*i + 1)),
       Real.sqrt (-2 * Real.log (1 - U (pos + 2*i))) * Real.sin (2 * Real.pi * U (pos + 2*i + 1))] := by
  induction n generalizing pos l with
  | zero => rfl
  | succ n ih =>
    rw [List.range_succ_eq_map, List.flatMap_cons, List.flatMap_map]
    show (zRandND0 U ⟨pos, false, l⟩).1 :: (zRandND0 U (zRandND0 U ⟨pos, false, l⟩).2).1 :: ndSeq U (2*n) (zRandND0 U (zRandND0 U ⟨pos, false, l⟩).2).2 = _
    have e1 : zRandND0 U ⟨pos, false, l⟩ = (Real.sqrt (-2 * Real.log (1 - U pos)) * Real.cos (2 * Real.pi * U (pos + 1)),
        ⟨pos + 2, true, Real.sqrt (-2 * Real.log (1 - U pos)) * Real.sin (2 * Real.pi * U (pos + 1))⟩) := by
      unfold zRandND0; rw [if_pos rfl]
    have e2 : ∀ x, zRandND0 U ⟨pos + 2, true, x⟩ = (x, ⟨pos + 2, false, x⟩) := by
      intro x; unfold zRandND0; rw [if_neg (by simp)]
    rw [e1]
    dsimp only
    rw [e2]
    dsimp only
    rw [ih]
    simp only [List.cons_append, List.nil_append, mul_zero, add_zero, List.cons.injEq, true_and]
    congr 1
    funext i
    simp only [Nat.succ_eq_add_one]
    rw [show pos + 2 * (i + 1) = pos + 2 + 2 * i by omega]

/-- The squares of a pair sum to the exponential variate of twice the mean: both members come from the same radius. -/
theorem zRandND0_radius (U : Nat → ℝ) (pos : Nat) (l : ℝ) (h0 : 0 ≤ U pos) (h1 : U pos < 1) :
    (zRandND0 U ⟨pos, false, l⟩).1 ^ 2 + (zRandND0 U (zRandND0 U ⟨pos, false, l⟩).2).1 ^ 2 = 2 * zRandExp (U pos) := by
  have hlog : Real.log (1 - U pos) ≤ 0 := Real.log_nonpos (by linarith) (by linarith)
  unfold zRandND0 zRandExp
  simp only [if_true, Bool.true_eq_false, if_false]
  rw [mul_pow, mul_pow, Real.sq_sqrt (by linarith), ← mul_add, Real.cos_sq_add_sin_sq]
  ring

/-- C97: the ranges of the variates computed from one number of `[0,1)`. -/
theorem ranges (u alpha n : ℝ) (hu : 0 ≤ u ∧ u < 1) (hn : -1 < n) :
    0 ≤ zRandExp u ∧ 0 ≤ zRandWeibull u alpha ∧ 0 ≤ zRandPower u n ∧ zRandPower u n ≤ 1 := by
  have hlog : 0 ≤ - Real.log (1 - u) := by
    have := Real.log_nonpos (show 0 ≤ 1 - u by linarith) (by linarith); linarith
  have hn' : 0 < n + 1 := by linarith
  exact ⟨hlog, Real.rpow_nonneg hlog _, Real.rpow_nonneg hu.1 _, Real.rpow_le_one hu.1 hu.2.le (by positivity)⟩

/-- C97: the triangular variate, of two numbers of `[0,1]`, lies in `[-1,1]`. -/
theorem zRandTri_range (u v : ℝ) (hu : 0 ≤ u ∧ u ≤ 1) (hv : 0 ≤ v ∧ v ≤ 1) : |zRandTri u v| ≤ 1 := by
  unfold zRandTri
  rw [abs_le]
  constructor <;> linarith [hu.1, hu.2, hv.1, hv.2]

example : (0:ℝ) ≤ 1/2 ∧ (1/2:ℝ) < 1 ∧ (-1:ℝ) < 0 := by norm_num

/-- The exponential variate is distributed as it should be: it exceeds `x` exactly when the draw exceeds `1 - exp(-x)`. -/
theorem zRandExp_inverse (u x : ℝ) (h1 : u < 1) : x < zRandExp u ↔ 1 - Real.exp (-x) < u := by
  unfold zRandExp
  rw [lt_neg, Real.log_lt_iff_lt_exp (by linarith)]
  constructor <;> intro h <;> linarith

theorem gammaMid_pos (U : Nat → ℝ) (t a : ℝ) (fuel k pos : Nat) (x y : ℝ) (p : Nat) (h : gammaMid U t a fuel k pos = .ok (x, y, p)) : 0 < x := by
  induction k generalizing pos with
  | zero => simp [gammaMid] at h
  | succ k ih =>
    unfold gammaMid at h
    cases hd : gammaDisk U fuel pos with
    | fail => rw [hd] at h; simp at h
    | ub => rw [hd] at h; simp at h
    | ok r =>
      obtain ⟨x', y', p'⟩ := r
      rw [hd] at h
      dsimp only at h
      split_ifs at h with h1 h2
      · exact ih _ h
      · simp only [Res.ok.injEq, Prod.mk.injEq] at h
        rw [← h.1]; exact not_le.1 h2

theorem gammaBig_pos (U : Nat → ℝ) (t a : ℝ) (fuel k pos : Nat) (x : ℝ) (p : Nat) (h : gammaBig U t a fuel k pos = .ok (x, p)) : 0 < x := by
  induction k generalizing pos with
  | zero => simp [gammaBig] at h
  | succ k ih =>
    unfold gammaBig at h
    cases hd : gammaMid U t a fuel fuel pos with
    | fail => rw [hd] at h; simp at h
    | ub => rw [hd] at h; simp at h
    | ok r =>
      obtain ⟨x', y', p'⟩ := r
      rw [hd] at h
      dsimp only at h
      split_ifs at h with h1 h2
      · exact ih _ h
      · exact ih _ h
      · simp only [Res.ok.injEq, Prod.mk.injEq] at h
        rw [← h.1]; exact gammaMid_pos _ _ _ _ _ _ _ _ _ hd

theorem gammaSmall_nonneg (U : Nat → ℝ) (hU : ∀ i, 0 ≤ U i ∧ U i ≤ 1) (t a : ℝ) (k pos : Nat) (x : ℝ) (p : Nat) (h : gammaSmall U t a k pos = .ok (x, p)) : 0 ≤ x := by
  induction k generalizing pos with
  | zero => simp [gammaSmall] at h
  | succ k ih =>
    unfold gammaSmall at h
    split_ifs at h with h1 h2 h3 h4
    · exact ih _ h
    · simp only [Res.ok.injEq, Prod.mk.injEq] at h
      rw [← h.1]; exact Real.rpow_nonneg (hU _).1 _
    · exact ih _ h
    · simp only [Res.ok.injEq, Prod.mk.injEq] at h
      rw [← h.1]
      have := Real.log_nonpos (show 0 ≤ 1 - U (pos+1) by linarith [(hU (pos+1)).2]) (by linarith [(hU (pos+1)).1])
      linarith

/-- C97: the inverse transform of the Weibull distribution: the variate exceeds `x` exactly when the draw exceeds `1 - exp(-x^alpha)`. -/
theorem zRandWeibull_inverse (u x alpha : ℝ) (h0 : 0 ≤ u) (h1 : u < 1) (ha : 0 < alpha) (hx : 0 ≤ x) : x < zRandWeibull u alpha ↔ 1 - Real.exp (-(x ^ alpha)) < u := by
  have hlog : 0 ≤ - Real.log (1 - u) := by
    have := Real.log_nonpos (show 0 ≤ 1 - u by linarith) (by linarith); linarith
  unfold zRandWeibull
  rw [one_div, Real.lt_rpow_inv_iff_of_pos hx hlog ha]
  exact zRandExp_inverse u (x ^ alpha) h1

/-- C97: the inverse transform of the power distribution: the variate is below `x` exactly when the draw is below `x^(n+1)`. -/
theorem zRandPower_inverse (u x n : ℝ) (h0 : 0 ≤ u) (hn : -1 < n) (hx : 0 ≤ x) : zRandPower u n < x ↔ u < x ^ (n + 1) := by
  have hn' : 0 < n + 1 := by linarith
  unfold zRandPower
  rw [one_div, Real.rpow_inv_lt_iff_of_pos h0 hx hn']

example : zRandPower (1/4) 1 < 3/4 := by
  rw [zRandPower_inverse _ _ _ (by norm_num) (by norm_num) (by norm_num)]
  norm_num

/-- The point that is accepted lies in the half of the unit disk. -/
theorem gammaDisk_spec (U : Nat → ℝ) (k pos : Nat) (x y : ℝ) (p : Nat) (h : gammaDisk U k pos = .ok (x, y, p)) :
    x * x + y * y ≤ 1 ∧ 2 ≤ p ∧ x = 1 - U (p - 2) ∧ y = 2 * U (p - 1) - 1 := by
  induction k generalizing pos with
  | zero => simp [gammaDisk] at h
  | succ k ih =>
    unfold gammaDisk at h
    split_ifs at h with h1
    · exact ih _ h
    · simp only [Res.ok.injEq, Prod.mk.injEq] at h
      obtain ⟨rfl, rfl, rfl⟩ := h
      exact ⟨not_lt.1 h1, by omega, by simp, by simp⟩

/-- The slope of such a point, with a positive abscissa of the envelope. -/
theorem gammaMid_spec (U : Nat → ℝ) (t a : ℝ) (fuel k pos : Nat) (x y : ℝ) (p : Nat) (h : gammaMid U t a fuel k pos = .ok (x, y, p)) :
    x = t * y + a ∧ ∃ v w : ℝ, v ≠ 0 ∧ v * v + w * w ≤ 1 ∧ y = w / v ∧ 2 ≤ p ∧ v = 1 - U (p - 2) ∧ w = 2 * U (p - 1) - 1 := by
  induction k generalizing pos with
  | zero => simp [gammaMid] at h
  | succ k ih =>
    unfold gammaMid at h
    cases hd : gammaDisk U fuel pos with
    | fail => rw [hd] at h; simp at h
    | ub => rw [hd] at h; simp at h
    | ok r =>
      obtain ⟨x', y', p'⟩ := r
      rw [hd] at h
      dsimp only at h
      split_ifs at h with h1 h2
      · exact ih _ h
      · simp only [Res.ok.injEq, Prod.mk.injEq] at h
        obtain ⟨rfl, rfl, rfl⟩ := h
        obtain ⟨a1, a2, a3, a4⟩ := gammaDisk_spec U fuel pos _ _ _ hd
        exact ⟨rfl, x', y', h1, a1, rfl, a2, a3, a4⟩

theorem gammaBig_spec (U : Nat → ℝ) (t a : ℝ) (fuel k pos : Nat) (x : ℝ) (p : Nat) (h : gammaBig U t a fuel k pos = .ok (x, p)) :
    ∃ v w : ℝ, v ≠ 0 ∧ v * v + w * w ≤ 1 ∧ x = t * (w / v) + a ∧ 3 ≤ p ∧ v = 1 - U (p - 3) ∧ w = 2 * U (p - 2) - 1 ∧
      -50 ≤ a * Real.log (x / a) - t * (w / v) ∧ U (p - 1) ≤ (1 + (w / v) * (w / v)) * Real.exp (a * Real.log (x / a) - t * (w / v)) := by
  induction k generalizing pos with
  | zero => simp [gammaBig] at h
  | succ k ih =>
    unfold gammaBig at h
    cases hd : gammaMid U t a fuel fuel pos with
    | fail => rw [hd] at h; simp at h
    | ub => rw [hd] at h; simp at h
    | ok r =>
      obtain ⟨x', y', p'⟩ := r
      rw [hd] at h
      dsimp only at h
      split_ifs at h with h1 h2
      · exact ih _ h
      · exact ih _ h
      · simp only [Res.ok.injEq, Prod.mk.injEq] at h
        obtain ⟨rfl, rfl⟩ := h
        obtain ⟨b1, v, w, b2, b3, b4, b5, b6, b7⟩ := gammaMid_spec _ _ _ _ _ _ _ _ _ hd
        rw [b4] at b1 h1 h2
        exact ⟨v, w, b2, b3, b1, by omega, by rw [b6, show p' + 1 - 3 = p' - 2 by omega], by rw [b7, show p' + 1 - 2 = p' - 1 by omega], not_lt.1 h1, by simpa using not_lt.1 h2⟩

/-- C97, `zRandGamma` for a shape above one: the variate is `t y + a - 1` with `t = sqrt(2a-1)` and the slope `y` of a point uniform in the half disk, and it has been accepted by
the last draw against the ratio of the gamma density to the Cauchy envelope. -/
theorem zRandGamma_accept (U : Nat → ℝ) (fuel : Nat) (a : ℝ) (ha : 1 < a) (pos : Nat) (x : ℝ) (p : Nat) (h : zRandGamma U fuel a pos = .ok (x, p)) :
    ∃ v w : ℝ, v ≠ 0 ∧ v * v + w * w ≤ 1 ∧ 3 ≤ p ∧ v = 1 - U (p - 3) ∧ w = 2 * U (p - 2) - 1 ∧ x = Real.sqrt (2 * a - 1) * (w / v) + (a - 1) ∧
      U (p - 1) ≤ (1 + (w / v) ^ 2) * Real.exp ((a - 1) * Real.log (x / (a - 1)) - Real.sqrt (2 * a - 1) * (w / v)) := by
  unfold zRandGamma at h
  rw [if_pos ha] at h
  obtain ⟨v, w, h1, h2, h3, h4, h5, h6, -, h7⟩ := gammaBig_spec _ _ _ _ _ _ _ _ h
  rw [show 2 * (a - 1) + 1 = 2 * a - 1 by ring] at h3 h7
  exact ⟨v, w, h1, h2, h4, h5, h6, h3, by rw [sq]; exact h7⟩

/-- C97: a gamma variate is never negative, and positive for a shape above one. -/
theorem zRandGamma_range (U : Nat → ℝ) (hU : ∀ i, 0 ≤ U i ∧ U i ≤ 1) (fuel : Nat) (a : ℝ) (pos : Nat) (x : ℝ) (p : Nat) (h : zRandGamma U fuel a pos = .ok (x, p)) :
    0 ≤ x ∧ (1 < a → 0 < x) := by
  unfold zRandGamma at h
  split_ifs at h with h1
  · have := gammaBig_pos _ _ _ _ _ _ _ _ h
    exact ⟨this.le, fun _ => this⟩
  · exact ⟨gammaSmall_nonneg U hU _ _ _ _ _ _ h, fun h2 => absurd h2 h1⟩

/-- C97: chi-squared variates are never negative, and positive for more than two degrees of freedom. -/
theorem zRandChiSqr_range (U : Nat → ℝ) (hU : ∀ i, 0 ≤ U i ∧ U i ≤ 1) (fuel : Nat) (nu : ℝ) (pos : Nat) (x : ℝ) (p : Nat) (h : zRandChiSqr U fuel nu pos = .ok (x, p)) :
    0 ≤ x ∧ (2 < nu → 0 < x) := by
  unfold zRandChiSqr at h
  cases hg : zRandGamma U fuel (1/2 * nu) pos with
  | fail => rw [hg] at h; simp at h
  | ub => rw [hg] at h; simp at h
  | ok r =>
    obtain ⟨y, q⟩ := r
    rw [hg] at h
    simp only [Res.ok.injEq, Prod.mk.injEq] at h
    obtain ⟨a, b⟩ := zRandGamma_range U hU _ _ _ _ _ hg
    rw [← h.1]
    exact ⟨by linarith, fun hn => by have := b (by linarith); linarith⟩

/-- C97: a beta variate lies in `[0,1]`. -/
theorem zRandBeta_range (U : Nat → ℝ) (hU : ∀ i, 0 ≤ U i ∧ U i ≤ 1) (fuel : Nat) (a b : ℝ) (pos : Nat) (x : ℝ) (p : Nat) (h : zRandBeta U fuel a b pos = .ok (x, p)) :
    0 ≤ x ∧ x ≤ 1 := by
  unfold zRandBeta at h
  cases hg : zRandGamma U fuel a pos with
  | fail => rw [hg] at h; simp at h
  | ub => rw [hg] at h; simp at h
  | ok r =>
    obtain ⟨y, q⟩ := r
    rw [hg] at h
    dsimp only at h
    cases hg2 : zRandGamma U fuel b q with
    | fail => rw [hg2] at h; simp at h
    | ub => rw [hg2] at h; simp at h
    | ok r =>
      obtain ⟨z, q'⟩ := r
      rw [hg2] at h
      dsimp only at h
      split_ifs at h with h0
      simp only [Res.ok.injEq, Prod.mk.injEq] at h
      have hy := (zRandGamma_range U hU _ _ _ _ _ hg).1
      have hz := (zRandGamma_range U hU _ _ _ _ _ hg2).1
      have hpos : 0 < y + z := lt_of_le_of_ne (by linarith) (Ne.symm h0)
      rw [← h.1]
      exact ⟨by positivity, by rw [div_le_one hpos]; linarith⟩

/-- C97, `zRandBeta`: the share of the first of two gamma variates drawn one after the other. -/
theorem zRandBeta_spec (U : Nat → ℝ) (fuel : Nat) (a b : ℝ) (pos : Nat) (x : ℝ) (p : Nat) (h : zRandBeta U fuel a b pos = .ok (x, p)) :
    ∃ g1 q g2, zRandGamma U fuel a pos = .ok (g1, q) ∧ zRandGamma U fuel b q = .ok (g2, p) ∧ g1 + g2 ≠ 0 ∧ x * (g1 + g2) = g1 := by
  unfold zRandBeta at h
  cases hg : zRandGamma U fuel a pos with
  | fail => rw [hg] at h; simp at h
  | ub => rw [hg] at h; simp at h
  | ok r =>
    obtain ⟨y, q⟩ := r
    rw [hg] at h
    dsimp only at h
    cases hg2 : zRandGamma U fuel b q with
    | fail => rw [hg2] at h; simp at h
    | ub => rw [hg2] at h; simp at h
    | ok r =>
      obtain ⟨z, q'⟩ := r
      rw [hg2] at h
      dsimp only at h
      split_ifs at h with h0
      simp only [Res.ok.injEq, Prod.mk.injEq] at h
      obtain ⟨rfl, rfl⟩ := h
      exact ⟨y, q, z, rfl, hg2, h0, div_mul_cancel₀ _ h0⟩

/-- C97, `zRandFD`: the ratio of two chi-squared variates, each over its number of degrees of freedom. -/
theorem zRandFD_spec (U : Nat → ℝ) (fuel : Nat) (a b : ℝ) (ha : 0 < a) (hb : 0 < b) (pos : Nat) (x : ℝ) (p : Nat) (h : zRandFD U fuel a b pos = .ok (x, p)) :
    ∃ x1 q x2, zRandChiSqr U fuel a pos = .ok (x1, q) ∧ zRandChiSqr U fuel b q = .ok (x2, p) ∧ x2 ≠ 0 ∧ x = (x1 / a) / (x2 / b) := by
  unfold zRandFD at h
  cases hg : zRandChiSqr U fuel a pos with
  | fail => rw [hg] at h; simp at h
  | ub => rw [hg] at h; simp at h
  | ok r =>
    obtain ⟨y, q⟩ := r
    rw [hg] at h
    dsimp only at h
    cases hg2 : zRandChiSqr U fuel b q with
    | fail => rw [hg2] at h; simp at h
    | ub => rw [hg2] at h; simp at h
    | ok r =>
      obtain ⟨z, q'⟩ := r
      rw [hg2] at h
      dsimp only at h
      split_ifs at h with h0
      simp only [Res.ok.injEq, Prod.mk.injEq] at h
      obtain ⟨rfl, rfl⟩ := h
      have hz : z ≠ 0 := fun e => h0 (by rw [e, zero_mul])
      exact ⟨y, q, z, rfl, hg2, hz, by field_simp⟩

/-- C97: an F variate is never negative for positive degrees of freedom. -/
theorem zRandFD_range (U : Nat → ℝ) (hU : ∀ i, 0 ≤ U i ∧ U i ≤ 1) (fuel : Nat) (a b : ℝ) (ha : 0 < a) (hb : 0 < b) (pos : Nat) (x : ℝ) (p : Nat)
    (h : zRandFD U fuel a b pos = .ok (x, p)) : 0 ≤ x := by
  unfold zRandFD at h
  cases hg : zRandChiSqr U fuel a pos with
  | fail => rw [hg] at h; simp at h
  | ub => rw [hg] at h; simp at h
  | ok r =>
    obtain ⟨y, q⟩ := r
    rw [hg] at h
    dsimp only at h
    cases hg2 : zRandChiSqr U fuel b q with
    | fail => rw [hg2] at h; simp at h
    | ub => rw [hg2] at h; simp at h
    | ok r =>
      obtain ⟨z, q'⟩ := r
      rw [hg2] at h
      dsimp only at h
      split_ifs at h with h0
      simp only [Res.ok.injEq, Prod.mk.injEq] at h
      have hy := (zRandChiSqr_range U hU _ _ _ _ _ hg).1
      have hz := (zRandChiSqr_range U hU _ _ _ _ _ hg2).1
      rw [← h.1]
      positivity

/-- C97: the Poisson variate is the first `i` for which `exp(lambda)` times the product of `i+1` draws is not above one. -/
theorem zRandPoisson_spec (U : Nat → ℝ) (fuel : Nat) (lambda : ℝ) (pos i : Nat) (h : zRandPoisson U fuel lambda pos = .ok i) :
    Real.exp lambda * ∏ k ∈ Finset.range (i+1), U (pos + k) ≤ 1 ∧ ∀ j < i, 1 < Real.exp lambda * ∏ k ∈ Finset.range (j+1), U (pos + k) := by
  have go : ∀ k j lam, lam = Real.exp lambda * ∏ l ∈ Finset.range (j+1), U (pos + l) → (∀ j' < j, 1 < Real.exp lambda * ∏ l ∈ Finset.range (j'+1), U (pos + l)) →
      poissonLoop U k (pos + j + 1) lam j = .ok i →
      Real.exp lambda * ∏ k ∈ Finset.range (i+1), U (pos + k) ≤ 1 ∧ ∀ j < i, 1 < Real.exp lambda * ∏ k ∈ Finset.range (j+1), U (pos + k) := by
    intro k
    induction k with
    | zero => intro j lam _ _ h; simp [poissonLoop] at h
    | succ k ih =>
      intro j lam hl hj h
      unfold poissonLoop at h
      split_ifs at h with hc
      · refine ih (j+1) (lam * U (pos + j + 1)) ?_ ?_ h
        · rw [Finset.prod_range_succ, hl, mul_assoc]; rfl
        · intro j' hj'
          by_cases he : j' = j
          · rw [he, ← hl]; exact hc
          · exact hj j' (by omega)
      · simp only [Res.ok.injEq] at h
        subst h
        exact ⟨by rw [← hl]; exact not_lt.1 hc, hj⟩
  exact go fuel 0 _ (by simp) (by intro j' h; omega) h

/-- C97 is violated: the geometric variate counts the trials up to the first success, so that it is at least one; the number zero is drawn, and zero is returned. -/
theorem zRandGeo_violated (p : ℝ) (h0 : 0 < p) (h1 : p < 1) : zRandGeo 0 p = .ok 0 := by
  unfold zRandGeo
  have : Real.log (1 - p) < 0 := Real.log_neg (by linarith) (by linarith)
  rw [if_neg this.ne]
  simp

/-- C97: for a number strictly between zero and one it is the geometric variate: the first `k` with `1 - u ≥ (1-p)^k`. -/
theorem zRandGeo_spec_partial (u p : ℝ) (h0 : 0 < p) (h1 : p < 1) (hu0 : 0 < u) (hu1 : u < 1) :
    ∃ k : Nat, 1 ≤ k ∧ zRandGeo u p = .ok (k : Int) ∧ (1 - p) ^ k ≤ 1 - u ∧ 1 - u < (1 - p) ^ (k - 1) := by
  have hlp : Real.log (1 - p) < 0 := Real.log_neg (by linarith) (by linarith)
  have hlu : Real.log (1 - u) < 0 := Real.log_neg (by linarith) (by linarith)
  have hpos : 0 < Real.log (1 - u) / Real.log (1 - p) := div_pos_of_neg_of_neg hlu hlp
  have hc : 1 ≤ ⌈Real.log (1 - u) / Real.log (1 - p)⌉ := Int.one_le_ceil_iff.2 hpos
  obtain ⟨k, hk⟩ := Int.eq_ofNat_of_zero_le (le_trans zero_le_one hc)
  have hk1 : 1 ≤ k := by rw [hk] at hc; exact_mod_cast hc
  refine ⟨k, hk1, ?_, ?_, ?_⟩
  · unfold zRandGeo; rw [if_neg hlp.ne, hk]
  · have h := Int.le_ceil (Real.log (1 - u) / Real.log (1 - p))
    rw [hk, div_le_iff_of_neg hlp] at h
    have h' : Real.log ((1 - p) ^ k) ≤ Real.log (1 - u) := by rw [Real.log_pow]; exact_mod_cast h
    exact (Real.log_le_log_iff (pow_pos (by linarith) _) (by linarith)).1 h'
  · have h := Int.ceil_lt_add_one (Real.log (1 - u) / Real.log (1 - p))
    rw [hk] at h
    have h2 : ((k - 1 : Nat) : ℝ) < Real.log (1 - u) / Real.log (1 - p) := by
      rw [Nat.cast_sub hk1]; push_cast at h ⊢; linarith
    rw [lt_div_iff_of_neg hlp] at h2
    have h' : Real.log (1 - u) < Real.log ((1 - p) ^ (k - 1)) := by rw [Real.log_pow]; exact h2
    exact (Real.log_lt_log_iff (by linarith) (pow_pos (by linarith) _)).1 h'

/-- Concrete numbers: three of the draws 0, 1/4, 1/2, 3/4 are below 2/3. -/
example : (zRandBinom (fun i => (i : ℝ) / 4) (2/3) 4 0 0).1 = 3 := by
  norm_num [zRandBinom]

/-- The Poisson generator with mean one and draws 1, 1/4: `e > 1` once, then `e / 4 ≤ 1`. -/
example : zRandPoisson (fun i => if i = 0 then 1 else 1/4) 2 1 0 = .ok 1 := by
  have h1 : (1:ℝ) < Real.exp 1 := by have := Real.add_one_lt_exp (x := 1) one_ne_zero; linarith
  have h2 : ¬ (1:ℝ) < Real.exp 1 * (1/4) := by have := Real.exp_one_lt_d9; intro h; linarith
  simp only [zRandPoisson, poissonLoop]
  simp only [if_true, mul_one, gt_iff_lt, h1, zero_add, one_ne_zero, if_false, h2]

/-- A run of the gamma generator for the shape 1/2 ends at the first turn: 0 < t, `x = 0^2 = 0`, and the third number 1/2 is less than `exp(-0)`. -/
example : zRandGamma (fun i => if i = 2 then 1/2 else 0) 1 (1/2) 0 = .ok (0, 3) := by
  have ht : (0:ℝ) < Real.exp 1 / (1/2 + Real.exp 1) := by positivity
  norm_num [zRandGamma, gammaSmall, ht]

end
end Zm.Rnd
