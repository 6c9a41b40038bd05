import Verif.Props.Bessel
import Mathlib.Analysis.SpecificLimits.Normed
import Mathlib.Analysis.Normed.Algebra.Exponential
import Mathlib.Analysis.SpecialFunctions.Exponential

/-! # Bessel functions: the series, and the tables against them -/

set_option linter.unusedSectionVars false

namespace Zm.Bessel
open Zm Finset

/-! ## Specification -/

/-- The Bessel function of the first kind and order `n` by its power series. -/
noncomputable def J (n : Nat) (x : ℝ) : ℝ := ∑' k : ℕ, (-1) ^ k / (k.factorial * (n + k).factorial) * (x / 2) ^ (2 * k + n)

/-- The modified Bessel function of the first kind. -/
noncomputable def I (n : Nat) (x : ℝ) : ℝ := ∑' k : ℕ, 1 / (k.factorial * (n + k).factorial) * (x / 2) ^ (2 * k + n)

/-! ## Polynomials with rational coefficients -/

def addL : List ℚ → List ℚ → List ℚ
  | [], b => b
  | a, [] => a
  | x :: a, y :: b => (x + y) :: addL a b

theorem ev_addL : ∀ (a b : List ℚ) (x : ℝ), ev (addL a b) x = ev a x + ev b x
  | [], b, x => by simp [addL]
  | a :: as, [], x => by simp [addL]
  | a :: as, b :: bs, x => by
    rw [addL, ev_cons, ev_addL as bs, ev_cons, ev_cons]; push_cast; ring

theorem ev_smul (k : ℚ) : ∀ (a : List ℚ) (x : ℝ), ev (a.map (k * ·)) x = k * ev a x
  | [], x => by simp
  | a :: as, x => by rw [List.map_cons, ev_cons, ev_smul k as, ev_cons]; push_cast; ring

/-- The coefficients at another point: those of p(s + a) in s. -/
def shiftL (a : ℚ) : List ℚ → List ℚ
  | [] => []
  | c :: cs => addL (c :: shiftL a cs) ((shiftL a cs).map (a * ·))

theorem ev_shiftL (a : ℚ) : ∀ (c : List ℚ) (s : ℝ), ev (shiftL a c) s = ev c (s + a)
  | [], s => rfl
  | c :: cs, s => by rw [shiftL, ev_addL, ev_smul, ev_cons, ev_shiftL a cs, ev_cons]; ring

/-- A bound of a polynomial on [-h, h]. -/
def bnd (h : ℚ) : List ℚ → ℚ
  | [] => 0
  | a :: c => (if a < 0 then -a else a) + h * bnd h c

theorem bnd_nonneg {h : ℚ} (hh : 0 ≤ h) : ∀ c, 0 ≤ bnd h c
  | [] => le_rfl
  | a :: c => by
    rw [bnd]
    have := mul_nonneg hh (bnd_nonneg hh c)
    split_ifs <;> linarith

theorem ev_bnd {h : ℚ} (hh : 0 ≤ h) : ∀ (c : List ℚ) (s : ℝ), |s| ≤ h → |ev c s| ≤ bnd h c
  | [], s, _ => by simp [bnd]
  | a :: c, s, hs => by
    rw [ev_cons, bnd]
    have h1 := ev_bnd hh c s hs
    have h2 : |s * ev c s| ≤ h * bnd h c := by
      rw [abs_mul]
      exact mul_le_mul hs h1 (abs_nonneg _) (by exact_mod_cast hh)
    have h3 : |(a : ℝ)| = ((if a < 0 then -a else a : ℚ) : ℝ) := by
      by_cases ha : a < 0
      · rw [if_pos ha, abs_of_neg (by exact_mod_cast ha)]; push_cast; rfl
      · rw [if_neg ha, abs_of_nonneg (by exact_mod_cast not_lt.mp ha)]
    push_cast at h3 ⊢
    calc |(a : ℝ) + s * ev c s| ≤ |(a : ℝ)| + |s * ev c s| := abs_add_le _ _
      _ ≤ _ := by rw [h3]; exact add_le_add le_rfl h2

/-- The bound of the distance of q(s + a) and p(s + b) for |s| ≤ h. -/
def dist (q : List ℚ) (a : ℚ) (p : List ℚ) (b h : ℚ) : ℚ := bnd h (addL (shiftL a q) ((shiftL b p).map (-1 * ·)))

theorem close {h : ℚ} (hh : 0 ≤ h) (q : List ℚ) (a : ℚ) (p : List ℚ) (b : ℚ) (s : ℝ) (hs : |s| ≤ h) : |ev q (s + a) - ev p (s + b)| ≤ dist q a p b h := by
  have := ev_bnd hh (addL (shiftL a q) ((shiftL b p).map (-1 * ·))) s hs
  rw [ev_addL, ev_smul, ev_shiftL, ev_shiftL] at this
  push_cast at this
  rwa [neg_one_mul, ← sub_eq_add_neg] at this

/-! ## The series -/

/-- A coefficient of the series. -/
def cf (σ : ℚ) (n k : Nat) : ℚ := σ ^ k / (k.factorial * (n + k).factorial : ℕ)

/-- The coefficients of the sum in t for x²/4 = lam t, from the `k`-th on. -/
def ser (σ : ℚ) (n : Nat) (lam : ℚ) : Nat → Nat → List ℚ
  | _, 0 => []
  | k, N + 1 => cf σ n k * lam ^ k :: ser σ n lam (k + 1) N

theorem ev_ser (σ : ℚ) (n : Nat) (lam : ℚ) (t : ℝ) : ∀ (N k : Nat), (lam : ℝ) ^ k * t ^ k = (lam * t) ^ k → t ^ k * ev (ser σ n lam k N) t = ∑ i ∈ range N, (cf σ n (k + i) : ℝ) * (lam * t) ^ (k + i)
  | 0, k, _ => by simp [ser]
  | N + 1, k, h => by
    have ih := ev_ser σ n lam t N (k + 1) (by rw [mul_pow])
    rw [ser, ev_cons, Finset.sum_range_succ', mul_add, ← mul_assoc, ← pow_succ, ih, add_comm]
    congr 1
    · exact Finset.sum_congr rfl fun i _ => by rw [show k + 1 + i = k + (i + 1) by omega]
    · push_cast
      rw [add_zero, ← h]; ring

theorem ev_ser0 (σ : ℚ) (n : Nat) (lam : ℚ) (t : ℝ) (N : Nat) : ev (ser σ n lam 0 N) t = ∑ i ∈ range N, (cf σ n i : ℝ) * (lam * t) ^ i := by
  have := ev_ser σ n lam t N 0 (by simp)
  simpa using this

/-- Both functions at once. -/
noncomputable def B (σ : ℚ) (n : Nat) (x : ℝ) : ℝ := ∑' k : ℕ, (cf σ n k : ℝ) * (x / 2) ^ (2 * k + n)

theorem J_eq (n : Nat) (x : ℝ) : J n x = B (-1) n x := by
  unfold J B cf
  refine tsum_congr fun k => ?_
  push_cast; rfl

theorem I_eq (n : Nat) (x : ℝ) : I n x = B 1 n x := by
  unfold I B cf
  refine tsum_congr fun k => ?_
  rw [one_pow]; push_cast; rfl

theorem cf_abs {σ : ℚ} (hσ : |σ| = 1) (n k : Nat) : |(cf σ n k : ℝ)| = 1 / (k.factorial * (n + k).factorial : ℕ) := by
  have : |cf σ n k| = 1 / (k.factorial * (n + k).factorial : ℕ) := by
    unfold cf
    rw [abs_div, abs_pow, hσ, one_pow, Nat.abs_cast]
  rw [← Rat.cast_abs, this]; push_cast; rfl

/-- The terms decrease geometrically from the `N`-th on. -/
theorem term_bound {σ : ℚ} (hσ : |σ| = 1) (n N i : Nat) {x U : ℝ} (hU : x ^ 2 / 4 ≤ U) :
    |(cf σ n (N + i) : ℝ) * (x / 2) ^ (2 * (N + i) + n)| ≤ |x / 2| ^ n * (U ^ N / (N.factorial * (n + N).factorial : ℕ)) * (U / ((N + 1) * (n + N + 1) : ℕ)) ^ i := by
  have h0 : 0 ≤ x ^ 2 / 4 := by positivity
  have h1 : N.factorial * (N + 1) ^ i ≤ (N + i).factorial := Nat.factorial_mul_pow_le_factorial
  have h2 : (n + N).factorial * (n + N + 1) ^ i ≤ (n + (N + i)).factorial := by
    rw [← Nat.add_assoc]; exact Nat.factorial_mul_pow_le_factorial
  have h3 : (N.factorial * (n + N).factorial) * ((N + 1) * (n + N + 1)) ^ i ≤ (N + i).factorial * (n + (N + i)).factorial := by
    calc _ = (N.factorial * (N + 1) ^ i) * ((n + N).factorial * (n + N + 1) ^ i) := by rw [mul_pow]; ring
      _ ≤ _ := Nat.mul_le_mul h1 h2
  have e : |(x / 2) ^ (2 * (N + i) + n)| = |x / 2| ^ n * (x ^ 2 / 4) ^ (N + i) := by
    rw [abs_pow, pow_add, pow_mul, sq_abs, div_pow, mul_comm]; norm_num
  rw [abs_mul, cf_abs hσ, e]
  have hp : (0 : ℝ) < ((N.factorial * (n + N).factorial * ((N + 1) * (n + N + 1)) ^ i : ℕ) : ℝ) := by
    have h4 := Nat.factorial_pos N
    have h5 := Nat.factorial_pos (n + N)
    positivity
  have h6 : (1 : ℝ) / ((N + i).factorial * (n + (N + i)).factorial : ℕ) ≤ 1 / ((N.factorial * (n + N).factorial * ((N + 1) * (n + N + 1)) ^ i : ℕ) : ℝ) :=
    one_div_le_one_div_of_le hp (by exact_mod_cast h3)
  have h7 : (x ^ 2 / 4) ^ (N + i) ≤ U ^ (N + i) := pow_le_pow_left₀ h0 hU _
  calc _ ≤ 1 / ((N.factorial * (n + N).factorial * ((N + 1) * (n + N + 1)) ^ i : ℕ) : ℝ) * (|x / 2| ^ n * U ^ (N + i)) :=
        mul_le_mul h6 (mul_le_mul_of_nonneg_left h7 (by positivity)) (by positivity) (by positivity)
    _ = _ := by
      rw [pow_add, div_pow]
      push_cast
      have h4 : (N.factorial : ℝ) ≠ 0 := by exact_mod_cast (Nat.factorial_pos N).ne'
      have h5 : ((n + N).factorial : ℝ) ≠ 0 := by exact_mod_cast (Nat.factorial_pos (n + N)).ne'
      field_simp

theorem summable {σ : ℚ} (hσ : |σ| = 1) (n : Nat) (x : ℝ) : Summable fun k : ℕ => (cf σ n k : ℝ) * (x / 2) ^ (2 * k + n) := by
  obtain ⟨N, hN⟩ := exists_nat_gt (x ^ 2 / 4)
  rw [← summable_nat_add_iff N]
  have hr0 : (0 : ℝ) ≤ x ^ 2 / 4 / ((N + 1) * (n + N + 1) : ℕ) := by positivity
  have hr : x ^ 2 / 4 / ((N + 1) * (n + N + 1) : ℕ) < 1 := by
    rw [div_lt_one (by positivity)]
    refine lt_of_lt_of_le hN ?_
    exact_mod_cast (by nlinarith : N ≤ (N + 1) * (n + N + 1))
  refine Summable.of_norm_bounded ((summable_geometric_of_lt_one hr0 hr).mul_left (|x / 2| ^ n * ((x ^ 2 / 4) ^ N / (N.factorial * (n + N).factorial : ℕ)))) fun i => ?_
  rw [Real.norm_eq_abs, Nat.add_comm i N]
  exact term_bound hσ n N i le_rfl

/-- A bound of what follows the first `N` terms. -/
def tailQ (n N : Nat) (U : ℚ) : ℚ := U ^ N / (N.factorial * (n + N).factorial : ℕ) / (1 - U / ((N + 1) * (n + N + 1) : ℕ))

/-- **The first terms of the series.** -/
theorem series_tail {σ : ℚ} (hσ : |σ| = 1) (n N : Nat) {x : ℝ} {U : ℚ} (hU : x ^ 2 / 4 ≤ U) (hr : U < ((N + 1) * (n + N + 1) : ℕ)) {lam : ℚ} {t : ℝ} (ht : lam * t = x ^ 2 / 4) :
    |B σ n x - (x / 2) ^ n * ev (ser σ n lam 0 N) t| ≤ |x / 2| ^ n * tailQ n N U := by
  have e : (x / 2) ^ n * ev (ser σ n lam 0 N) t = ∑ k ∈ range N, (cf σ n k : ℝ) * (x / 2) ^ (2 * k + n) := by
    rw [ev_ser0, ht, Finset.mul_sum]
    refine Finset.sum_congr rfl fun k _ => ?_
    rw [pow_add, pow_mul, div_pow x 2 2]; norm_num; ring
  have hs := (summable hσ n x).sum_add_tsum_nat_add N
  have hU0 : (0 : ℝ) ≤ U := le_trans (by positivity) hU
  have hr0 : (0 : ℝ) ≤ U / ((N + 1) * (n + N + 1) : ℕ) := by positivity
  have hr1 : (U : ℝ) / ((N + 1) * (n + N + 1) : ℕ) < 1 := by
    rw [div_lt_one (by positivity)]
    exact_mod_cast hr
  unfold B
  rw [e, ← hs, add_sub_cancel_left]
  have hg := (hasSum_geometric_of_lt_one hr0 hr1).mul_left (|x / 2| ^ n * ((U : ℝ) ^ N / (N.factorial * (n + N).factorial : ℕ)))
  have := tsum_of_norm_bounded hg (f := fun i => (cf σ n (i + N) : ℝ) * (x / 2) ^ (2 * (i + N) + n)) fun i => by
    rw [Real.norm_eq_abs, Nat.add_comm i N]
    exact term_bound hσ n N i hU
  rw [Real.norm_eq_abs] at this
  refine this.trans (le_of_eq ?_)
  unfold tailQ
  push_cast
  rw [mul_assoc, div_eq_mul_inv (_ / _) (1 - _)]

/-- A zero after every coefficient: p(x²). -/
def inter : List ℚ → List ℚ
  | [] => []
  | c :: cs => c :: 0 :: inter cs

theorem ev_inter : ∀ (c : List ℚ) (x : ℝ), ev (inter c) x = ev c (x * x)
  | [], x => rfl
  | c :: cs, x => by rw [inter, ev_cons, ev_cons, ev_inter cs, ev_cons]; push_cast; ring

/-- All coefficients times 1/2. -/
def half (c : List ℚ) : List ℚ := c.map (1 / 2 * ·)

theorem ev_half (c : List ℚ) (x : ℝ) : ev (half c) x = ev c x / 2 := by
  unfold half; rw [ev_smul]; push_cast; ring

/-- The rational value of a polynomial. -/
def evQ : List ℚ → ℚ → ℚ
  | [], _ => 0
  | c :: cs, x => c + x * evQ cs x

theorem evQ_cast : ∀ (c : List ℚ) (x : ℚ), ((evQ c x : ℚ) : ℝ) = ev c x
  | [], x => by simp [evQ]
  | c :: cs, x => by rw [evQ, ev_cons]; push_cast; rw [evQ_cast cs x]

theorem ev_mono : ∀ (c : List ℚ), (∀ a ∈ c, 0 ≤ a) → ∀ {x y : ℝ}, 0 ≤ x → x ≤ y → 0 ≤ ev c x ∧ ev c x ≤ ev c y
  | [], _, x, y, _, _ => by simp
  | c :: cs, h, x, y, hx, hxy => by
    obtain ⟨h1, h2⟩ := ev_mono cs (fun a ha => h a (List.mem_cons_of_mem _ ha)) hx hxy
    have hc : (0 : ℝ) ≤ c := by exact_mod_cast h c (List.mem_cons_self ..)
    rw [ev_cons, ev_cons]
    have h3 := mul_nonneg hx h1
    have h4 := mul_le_mul hxy h2 h1 (hx.trans hxy)
    constructor <;> linarith

theorem B_neg (σ : ℚ) (n : Nat) (x : ℝ) : B σ n (-x) = (-1) ^ n * B σ n x := by
  unfold B
  rw [← tsum_mul_left]
  refine tsum_congr fun k => ?_
  rw [neg_div, neg_pow, pow_add, pow_mul]; norm_num; ring

theorem B_abs0 (σ : ℚ) (x : ℝ) : B σ 0 |x| = B σ 0 x := by
  rcases abs_cases x with ⟨h, _⟩ | ⟨h, _⟩
  · rw [h]
  · rw [h, B_neg]; simp

/-- `close` with the points and the bound given. -/
theorem close' {q p : List ℚ} {a b h ε : ℚ} (hd : dist q a p b h ≤ ε) (hh : 0 ≤ h) {u w : ℝ} (s : ℝ) (hs : |s| ≤ h) (hu : u = s + a) (hw : w = s + b) :
    |ev q u - ev p w| ≤ (ε : ℝ) := by
  rw [hu, hw]
  exact (close hh q a p b s hs).trans (by exact_mod_cast hd)

theorem via {A Q P d1 d2 : ℝ} (h1 : |A - Q| ≤ d1) (h2 : |Q - P| ≤ d2) : |P - A| ≤ d1 + d2 := by
  rw [abs_sub_comm]
  calc |A - P| = |(A - Q) + (Q - P)| := by ring_nf
    _ ≤ _ := (abs_add_le _ _).trans (add_le_add h1 h2)

end Zm.Bessel
