import Verif.Props.SingVal
import Mathlib.Analysis.SpecificLimits.Basic

/-! # C108, continued: what the power method finds for symmetric matrices, and that it stops -/

set_option linter.unusedSectionVars false

namespace Zm.Eig
open Zm Misc LE Finset
variable {K : Type*} [Field K] [LinearOrder K] [IsStrictOrderedRing K]

/-! ## Specification -/

/-- The columns of `V` are orthonormal eigenvectors of the symmetric matrix `M`, with the eigenvalues `l`. -/
structure EigenBase (n : Nat) (M V : Nat → Nat → K) (l : Nat → K) : Prop where
  symm : Symm n M
  rows : OrthRows n V
  eig : ∀ i p, i < n → p < n → ∑ q ∈ range n, M i q * V q p = l p * V i p

/-- The coordinate of a vector along an eigenvector. -/
def coord (n : Nat) (V : Nat → Nat → K) (x : Nat → K) (p : Nat) : K := ∑ i ∈ range n, V i p * x i

/-- The part of the square length along the eigenvectors of the eigenvalue `L`. -/
def partSq (n : Nat) (V : Nat → Nat → K) (l : Nat → K) (L : K) (x : Nat → K) : K := ∑ p ∈ (range n).filter (fun p => l p = L), coord n V x p ^ 2

/-- The rest of it. -/
def restSq (n : Nat) (V : Nat → Nat → K) (l : Nat → K) (L : K) (x : Nat → K) : K := ∑ p ∈ (range n).filter (fun p => ¬ l p = L), coord n V x p ^ 2

/-! ## Coordinates -/

theorem coord_sq {n : Nat} {V : Nat → Nat → K} (h : OrthRows n V) (x : Nat → K) : ∑ p ∈ range n, coord n V x p ^ 2 = ∑ i ∈ range n, x i * x i := by
  unfold coord
  simp only [sq, sum_mul_sum]
  rw [sum_comm]
  refine sum_congr rfl fun i hi => ?_
  rw [sum_comm]
  have : ∀ j ∈ range n, ∑ p ∈ range n, V i p * x i * (V j p * x j) = (if i = j then 1 else 0) * (x i * x j) := by
    intro j hj
    rw [← h i j (mem_range.1 hi) (mem_range.1 hj), sum_mul]
    exact sum_congr rfl fun p _ => by ring
  rw [sum_congr rfl this]
  simp [mem_range.1 hi]

theorem part_add_rest {n : Nat} {V : Nat → Nat → K} (h : OrthRows n V) (l : Nat → K) (L : K) (x : Nat → K) :
    partSq n V l L x + restSq n V l L x = ∑ i ∈ range n, x i * x i := by
  unfold partSq restSq
  rw [sum_filter_add_sum_filter_not, coord_sq h]

theorem coord_mul {n : Nat} {M V : Nat → Nat → K} {l : Nat → K} (h : EigenBase n M V l) (x y : Nat → K) (hy : ∀ i, i < n → y i = ∑ j ∈ range n, M i j * x j)
    (p : Nat) (hp : p < n) : coord n V y p = l p * coord n V x p := by
  unfold coord
  rw [mul_sum, sum_congr rfl fun i hi => by rw [hy i (mem_range.1 hi), mul_sum]]
  rw [sum_comm]
  refine sum_congr rfl fun j hj => ?_
  have := h.eig j p (mem_range.1 hj) hp
  have e : ∑ i ∈ range n, V i p * (M i j * x j) = (∑ q ∈ range n, M j q * V q p) * x j := by
    rw [sum_mul]
    refine sum_congr rfl fun i hi => ?_
    rw [h.symm i j (mem_range.1 hi) (mem_range.1 hj)]
    ring
  rw [e, this]
  ring

theorem coord_lin (n : Nat) (V : Nat → Nat → K) (x y z : Nat → K) (c : K) (h : ∀ i, i < n → z i = y i - c * x i) (p : Nat) :
    coord n V z p = coord n V y p - c * coord n V x p := by
  unfold coord
  rw [mul_sum, ← sum_sub_distrib]
  refine sum_congr rfl fun i hi => ?_
  rw [h i (mem_range.1 hi)]
  ring

theorem coord_smul (n : Nat) (V : Nat → Nat → K) (x z : Nat → K) (c : K) (h : ∀ i, i < n → z i = x i * c) (p : Nat) :
    coord n V z p = coord n V x p * c := by
  unfold coord
  rw [sum_mul]
  refine sum_congr rfl fun i hi => ?_
  rw [h i (mem_range.1 hi)]
  ring

/-- What the power method delivers for a symmetric matrix when it stops by its test is close to an eigenvalue. -/
theorem zMatEigPower_near {n : Nat} {M V : Nat → Nat → K} {l : Nat → K} (h : EigenBase n M V l) (sqrt : K → K) (hq : SqrtOk sqrt) (tol : K) (ht : 0 ≤ tol)
    (iter : Int) (x0 : Nat → K) (hx : tol * tol < ∑ i ∈ range n, x0 i * x0 i) (hdone : (zMatEigPower sqrt tol n M iter x0).2.2.2 = true) :
    ∃ p, p < n ∧ ((zMatEigPower sqrt tol n M iter x0).1 - l p) ^ 2 ≤ n * tol ^ 2 := by
  obtain ⟨-, h2, h3, -⟩ := zMatEigPower_correct_partial sqrt hq tol ht n M iter x0 _ _ _ (by
    rw [← hdone])
  have hu : ∑ i ∈ range n, (zMatEigPower sqrt tol n M iter x0).2.2.1 i * (zMatEigPower sqrt tol n M iter x0).2.2.1 i = 1 := by
    obtain ⟨k, hk⟩ : ∃ k, OneD.iterInit iter = k + 1 := by
      unfold OneD.iterInit
      split_ifs with h
      · exact ⟨9999, rfl⟩
      · exact ⟨iter.toNat - 1, by omega⟩
    have := powerLoop_unit sqrt hq tol ht n M k ⟨x0, fun _ => 0, 1, false⟩ (Or.inr hx)
    unfold zMatEigPower
    rw [hk]
    exact this.1
  generalize (zMatEigPower sqrt tol n M iter x0).2.2.1 = ev at h2 h3 hu
  generalize (zMatEigPower sqrt tol n M iter x0).1 = val at h2 h3 ⊢
  by_contra hcon
  push Not at hcon
  -- the residual along the eigenvectors
  have hc : ∀ p, p < n → coord n V (fun i => ∑ j ∈ range n, M i j * ev j - val * ev i) p = (l p - val) * coord n V ev p := by
    intro p hp
    rw [coord_lin n V ev (fun i => ∑ j ∈ range n, M i j * ev j) _ val (fun _ _ => rfl), coord_mul h ev _ (fun _ _ => rfl) p hp]
    ring
  have h4 := coord_sq h.rows (fun i => ∑ j ∈ range n, M i j * ev j - val * ev i)
  rw [sum_congr rfl fun p hp => by rw [hc p (mem_range.1 hp)]] at h4
  have h5 : ∑ i ∈ range n, (∑ j ∈ range n, M i j * ev j - val * ev i) * (∑ j ∈ range n, M i j * ev j - val * ev i) ≤ n * tol ^ 2 := by
    have : ∀ i ∈ range n, (∑ j ∈ range n, M i j * ev j - val * ev i) * (∑ j ∈ range n, M i j * ev j - val * ev i) ≤ tol ^ 2 := by
      intro i hi
      rw [← sq, ← sq_abs]
      exact pow_le_pow_left₀ (abs_nonneg _) (h3 i (mem_range.1 hi)) 2
    have := sum_le_sum this
    rw [sum_const, card_range, nsmul_eq_mul] at this
    exact this
  have h6 := coord_sq h.rows ev
  rw [hu] at h6
  have h7 : n * tol ^ 2 * ∑ p ∈ range n, coord n V ev p ^ 2 < ∑ p ∈ range n, ((l p - val) * coord n V ev p) ^ 2 := by
    rw [mul_sum]
    obtain ⟨p, hp, hp0⟩ : ∃ p ∈ range n, coord n V ev p ≠ 0 := by
      by_contra hc0
      push Not at hc0
      rw [sum_eq_zero fun p hp => by rw [hc0 p hp]; ring] at h6
      exact zero_ne_one h6
    have hle : ∀ p ∈ range n, n * tol ^ 2 ≤ (l p - val) ^ 2 := by
      intro p hp
      have := hcon p (mem_range.1 hp)
      nlinarith
    refine sum_lt_sum (fun p hp => ?_) ⟨p, hp, ?_⟩
    · rw [mul_pow]
      exact mul_le_mul_of_nonneg_right (hle p hp) (sq_nonneg _)
    · rw [mul_pow]
      have := hcon p (mem_range.1 hp)
      refine mul_lt_mul_of_pos_right (by nlinarith) (by positivity)
  rw [h6, mul_one, h4] at h7
  linarith

/-! ## The iteration stops -/

/-- The part along the other eigenvectors is small against that along the dominant ones. -/
def Ratio (n : Nat) (V : Nat → Nat → ℝ) (l : Nat → ℝ) (L : ℝ) (t : ℝ) (x : Nat → ℝ) : Prop := 0 < partSq n V l L x ∧ restSq n V l L x ≤ t * partSq n V l L x

theorem ratio_mul {n : Nat} {M V : Nat → Nat → ℝ} {l : Nat → ℝ} (h : EigenBase n M V l) {L r t : ℝ} (hL : L ≠ 0) (hr : 0 ≤ r)
    (hgap : ∀ p, p < n → l p ≠ L → l p ^ 2 ≤ r * L ^ 2) {x y : Nat → ℝ} (hx : Ratio n V l L t x) (hy : ∀ i, i < n → y i = ∑ j ∈ range n, M i j * x j) :
    Ratio n V l L (r * t) y ∧ partSq n V l L y = L ^ 2 * partSq n V l L x := by
  have e1 : partSq n V l L y = L ^ 2 * partSq n V l L x := by
    unfold partSq
    rw [mul_sum]
    refine sum_congr rfl fun p hp => ?_
    rw [mem_filter, mem_range] at hp
    rw [coord_mul h x y hy p hp.1, hp.2, mul_pow]
  have e2 : restSq n V l L y ≤ r * L ^ 2 * restSq n V l L x := by
    unfold restSq
    rw [mul_sum]
    refine sum_le_sum fun p hp => ?_
    rw [mem_filter, mem_range] at hp
    rw [coord_mul h x y hy p hp.1, mul_pow]
    exact mul_le_mul_of_nonneg_right (hgap p hp.1 hp.2) (sq_nonneg _)
  refine ⟨⟨by rw [e1]; have := hx.1; positivity, ?_⟩, e1⟩
  rw [e1]
  refine e2.trans ?_
  calc r * L ^ 2 * restSq n V l L x ≤ r * L ^ 2 * (t * partSq n V l L x) := mul_le_mul_of_nonneg_left hx.2 (by positivity)
    _ = r * t * (L ^ 2 * partSq n V l L x) := by ring

theorem ratio_smul {n : Nat} {V : Nat → Nat → ℝ} {l : Nat → ℝ} {L t c : ℝ} (hc : c ≠ 0) {x y : Nat → ℝ} (hx : Ratio n V l L t x) (hy : ∀ i, i < n → y i = x i * c) :
    Ratio n V l L t y := by
  have e : ∀ p, coord n V y p ^ 2 = c ^ 2 * coord n V x p ^ 2 := by intro p; rw [coord_smul n V x y c hy p]; ring
  have e1 : partSq n V l L y = c ^ 2 * partSq n V l L x := by
    unfold partSq; rw [mul_sum]; exact sum_congr rfl fun p _ => e p
  have e2 : restSq n V l L y = c ^ 2 * restSq n V l L x := by
    unfold restSq; rw [mul_sum]; exact sum_congr rfl fun p _ => e p
  unfold Ratio
  rw [e1, e2]
  have hc2 : 0 < c ^ 2 := by positivity
  exact ⟨mul_pos hc2 hx.1, by have := mul_le_mul_of_nonneg_left hx.2 hc2.le; linarith⟩

/-- The residual of the Rayleigh quotient of a unit vector. -/
theorem residual_le {n : Nat} {M V : Nat → Nat → ℝ} {l : Nat → ℝ} (h : EigenBase n M V l) {L r t : ℝ} (hr1 : r ≤ 1) (ht : 0 ≤ t)
    (hgap : ∀ p, p < n → l p ≠ L → l p ^ 2 ≤ r * L ^ 2) {ev : Nat → ℝ} (hx : Ratio n V l L t ev) (hu : ∑ i ∈ range n, ev i * ev i = 1) (i : Nat) (hi : i < n) :
    (∑ j ∈ range n, M i j * ev j - (∑ i ∈ range n, ev i * ∑ j ∈ range n, M i j * ev j) * ev i) ^ 2 ≤ 4 * L ^ 2 * t := by
  obtain ⟨y, hy⟩ : ∃ y : Nat → ℝ, ∀ i, y i = ∑ j ∈ range n, M i j * ev j := ⟨_, fun _ => rfl⟩
  simp only [← hy]
  set val := ∑ i ∈ range n, ev i * y i with hval
  have exp : ∀ c, ∑ i ∈ range n, (y i - c * ev i) * (y i - c * ev i) = ∑ i ∈ range n, y i * y i - 2 * c * val + c ^ 2 := by
    intro c
    have : ∀ i, (y i - c * ev i) * (y i - c * ev i) = y i * y i - 2 * c * (ev i * y i) + c ^ 2 * (ev i * ev i) := by intro i; ring
    simp only [this, sum_add_distrib, sum_sub_distrib, ← mul_sum, hu]
    ring
  have h1 : (y i - val * ev i) ^ 2 ≤ ∑ i ∈ range n, (y i - val * ev i) * (y i - val * ev i) := by
    rw [sq]
    exact single_le_sum (f := fun i => (y i - val * ev i) * (y i - val * ev i)) (fun i _ => mul_self_nonneg _) (mem_range.2 hi)
  have h2 : ∑ i ∈ range n, (y i - val * ev i) * (y i - val * ev i) ≤ ∑ i ∈ range n, (y i - L * ev i) * (y i - L * ev i) := by
    rw [exp, exp]
    nlinarith [sq_nonneg (val - L)]
  have hc : ∀ p, p < n → coord n V (fun i => y i - L * ev i) p = (l p - L) * coord n V ev p := by
    intro p hp
    rw [coord_lin n V ev y _ L (fun _ _ => rfl), coord_mul h ev y (fun i _ => hy i) p hp]
    ring
  have h3 : ∑ i ∈ range n, (y i - L * ev i) * (y i - L * ev i) ≤ 4 * L ^ 2 * restSq n V l L ev := by
    rw [← coord_sq h.rows (fun i => y i - L * ev i), ← sum_filter_add_sum_filter_not (range n) (fun p => l p = L)]
    rw [sum_eq_zero (s := (range n).filter fun p => l p = L) fun p hp => by
      rw [mem_filter, mem_range] at hp
      rw [hc p hp.1, hp.2]
      ring, zero_add]
    unfold restSq
    rw [mul_sum]
    refine sum_le_sum fun p hp => ?_
    rw [mem_filter, mem_range] at hp
    rw [hc p hp.1, mul_pow]
    refine mul_le_mul_of_nonneg_right ?_ (sq_nonneg _)
    have h4 := hgap p hp.1 hp.2
    nlinarith [sq_nonneg (l p + L), sq_nonneg L]
  have h5 : restSq n V l L ev ≤ t := by
    have h6 := part_add_rest h.rows l L ev
    rw [hu] at h6
    have h7 : 0 ≤ restSq n V l L ev := sum_nonneg fun _ _ => sq_nonneg _
    have h8 := hx.2
    nlinarith
  have h9 : 4 * L ^ 2 * restSq n V l L ev ≤ 4 * L ^ 2 * t := mul_le_mul_of_nonneg_left h5 (by positivity)
  linarith

theorem powerLoop_stops {n : Nat} {M V : Nat → Nat → ℝ} {l : Nat → ℝ} (h : EigenBase n M V l) (sqrt : ℝ → ℝ) (hq : SqrtOk sqrt) {tol L r t0 : ℝ} (htol : 0 < tol)
    (hL : L ≠ 0) (hr : 0 ≤ r) (hr1 : r ≤ 1) (hgap : ∀ p, p < n → l p ≠ L → l p ^ 2 ≤ r * L ^ 2) (hlt : tol ^ 2 * (1 + t0) < L ^ 2) (k : Nat) :
    ∀ (s : PS ℝ) (t : ℝ), 0 ≤ t → t ≤ t0 → Ratio n V l L t s.x → tol * tol < ∑ i ∈ range n, s.x i * s.x i → 4 * L ^ 2 * t * r ^ k ≤ tol ^ 2 →
      (powerLoop sqrt tol n M (k+1) s).done = true := by
  have step : ∀ (s : PS ℝ) (t : ℝ), 0 ≤ t → Ratio n V l L t s.x → tol * tol < ∑ i ∈ range n, s.x i * s.x i →
      Ratio n V l L t (normalize sqrt tol n s.x s.ev) ∧ ∑ i ∈ range n, normalize sqrt tol n s.x s.ev i * normalize sqrt tol n s.x s.ev i = 1 := by
    intro s t ht hx hs
    refine ⟨?_, normalize_unit sqrt hq tol htol.le n s.x s.ev (Or.inr hs)⟩
    unfold normalize
    rw [inner_spec]
    obtain ⟨q1, q2⟩ := hq _ (sum_nonneg fun k (_ : k ∈ range n) => mul_self_nonneg (s.x k))
    have hg : tol < sqrt (∑ k ∈ range n, s.x k * s.x k) := by
      by_contra hc
      have := mul_le_mul (not_lt.1 hc) (not_lt.1 hc) q1 htol.le
      rw [q2] at this
      linarith
    rw [if_neg (by rw [abs_of_nonneg q1]; exact not_le.2 hg)]
    refine ratio_smul (c := 1 / sqrt (∑ k ∈ range n, s.x k * s.x k)) ?_ hx fun i hi => by rw [if_pos hi]
    have : 0 < sqrt (∑ k ∈ range n, s.x k * s.x k) := htol.trans hg
    positivity
  have test : ∀ (ev x : Nat → ℝ) (t : ℝ), 0 ≤ t → Ratio n V l L t ev → ∑ i ∈ range n, ev i * ev i = 1 → 4 * L ^ 2 * t ≤ tol ^ 2 →
      ∀ i, i < n → |mulVec n n M ev x i + -inner n ev (mulVec n n M ev x) * ev i| ≤ tol := by
    intro ev x t ht hx hu hle i hi
    rw [rayleigh, mulVec_spec, if_pos hi]
    have := (residual_le h hr1 ht hgap hx hu i hi).trans hle
    have h2 := abs_le_of_sq_le_sq' this htol.le
    rw [abs_le]
    unfold Ax
    constructor <;> linarith [h2.1, h2.2]
  induction k with
  | zero =>
    intro s t ht htt hx hs hk
    obtain ⟨a1, a2⟩ := step s t ht hx hs
    simp only [powerLoop]
    rw [if_pos (test _ s.x t ht a1 a2 (by simpa using hk))]
  | succ k ih =>
    intro s t ht htt hx hs hk
    obtain ⟨a1, a2⟩ := step s t ht hx hs
    rw [powerLoop]
    generalize normalize sqrt tol n s.x s.ev = ev at a1 a2
    by_cases g : ∀ i, i < n → |mulVec n n M ev s.x i + -inner n ev (mulVec n n M ev s.x) * ev i| ≤ tol
    · rw [if_pos g]
    · rw [if_neg g]
      obtain ⟨b1, b2⟩ := ratio_mul h (y := mulVec n n M ev s.x) hL hr hgap a1 (fun i hi => by rw [mulVec_spec, if_pos hi]; rfl)
      refine ih _ (r * t) (by positivity) (by nlinarith) b1 ?_ ?_
      · show tol * tol < ∑ i ∈ range n, mulVec n n M ev s.x i * mulVec n n M ev s.x i
        rw [← part_add_rest h.rows l L (mulVec n n M ev s.x), b2]
        have h6 := part_add_rest h.rows l L ev
        rw [a2] at h6
        have h7 : 0 ≤ restSq n V l L (mulVec n n M ev s.x) := sum_nonneg fun _ _ => sq_nonneg _
        have h8 := a1.2
        have h9 := a1.1
        have h10 : 1 ≤ (1 + t0) * partSq n V l L ev := by nlinarith
        have h11 : tol ^ 2 * (1 + t0) * partSq n V l L ev < L ^ 2 * partSq n V l L ev := mul_lt_mul_of_pos_right hlt h9
        have h12 : tol ^ 2 * 1 ≤ tol ^ 2 * ((1 + t0) * partSq n V l L ev) := mul_le_mul_of_nonneg_left h10 (by positivity)
        nlinarith
      · rw [pow_succ r k] at hk
        linarith

/-- The power method stops by its test after sufficiently many iterations if one eigenvalue is dominant, if the initial vector has a part along
its eigenvectors and if the tolerance is small against both. -/
theorem zMatEigPower_stops {n : Nat} {M V : Nat → Nat → ℝ} {l : Nat → ℝ} (h : EigenBase n M V l) (sqrt : ℝ → ℝ) (hq : SqrtOk sqrt) {tol L r : ℝ} (htol : 0 < tol)
    (hr : 0 ≤ r) (hr1 : r < 1) (hgap : ∀ p, p < n → l p ≠ L → l p ^ 2 ≤ r * L ^ 2) (x0 : Nat → ℝ) (hx : tol ^ 2 < ∑ i ∈ range n, x0 i * x0 i)
    (hpart : 0 < partSq n V l L x0) (hlt : tol ^ 2 * ∑ i ∈ range n, x0 i * x0 i < L ^ 2 * partSq n V l L x0) :
    ∃ N : Nat, ∀ iter : Int, N < iter → (zMatEigPower sqrt tol n M iter x0).2.2.2 = true := by
  have hrest : 0 ≤ restSq n V l L x0 := sum_nonneg fun _ _ => sq_nonneg _
  set t0 := restSq n V l L x0 / partSq n V l L x0 with ht0
  have ht0' : 0 ≤ t0 := by positivity
  have e0 : restSq n V l L x0 = t0 * partSq n V l L x0 := by rw [ht0]; field_simp
  have hsum := part_add_rest h.rows l L x0
  have hL2 : tol ^ 2 * (1 + t0) < L ^ 2 := by
    have : tol ^ 2 * ((1 + t0) * partSq n V l L x0) < L ^ 2 * partSq n V l L x0 := by
      have e : (1 + t0) * partSq n V l L x0 = ∑ i ∈ range n, x0 i * x0 i := by rw [← hsum, e0]; ring
      rw [e]; exact hlt
    by_contra hc
    have := mul_le_mul_of_nonneg_right (not_lt.1 hc) hpart.le
    linarith
  have hL : L ≠ 0 := by
    rintro rfl
    have : 0 < tol ^ 2 * (1 + t0) := by positivity
    linarith
  obtain ⟨N, hN⟩ : ∃ N : Nat, 4 * L ^ 2 * t0 * r ^ N ≤ tol ^ 2 := by
    have := (tendsto_pow_atTop_nhds_zero_of_lt_one hr hr1).const_mul (4 * L ^ 2 * t0)
    rw [mul_zero] at this
    have := this.eventually (gt_mem_nhds (show (0:ℝ) < tol ^ 2 by positivity))
    obtain ⟨N, hN⟩ := Filter.eventually_atTop.1 this
    exact ⟨N, (hN N le_rfl).le⟩
  refine ⟨N, fun iter hiter => ?_⟩
  obtain ⟨k, hk, hNk⟩ : ∃ k, OneD.iterInit iter = k + 1 ∧ N ≤ k := by
    unfold OneD.iterInit
    rw [if_neg (by omega)]
    exact ⟨iter.toNat - 1, by omega, by omega⟩
  unfold zMatEigPower
  rw [hk]
  refine powerLoop_stops h sqrt hq htol hL hr hr1.le hgap hL2 k ⟨x0, fun _ => 0, 1, false⟩ t0 ht0' le_rfl ⟨hpart, e0.le⟩ (by rw [← sq]; exact hx) ?_
  refine le_trans (mul_le_mul_of_nonneg_left ?_ (by positivity)) hN
  exact pow_le_pow_of_le_one hr hr1.le hNk

/-- Two and one on the diagonal. -/
theorem diag21_base : EigenBase 2 (fun i j => if i = j then (if i = 0 then 2 else 1) else 0) (fun i j => if i = j then (1:ℝ) else 0) (fun p => if p = 0 then 2 else 1) := by
  refine ⟨?_, ?_, ?_⟩
  · intro p q hp hq
    interval_cases p <;> interval_cases q <;> simp
  · intro p q hp hq
    interval_cases p <;> interval_cases q <;> simp [sum_range_succ]
  · intro p q hp hq
    interval_cases p <;> interval_cases q <;> simp [sum_range_succ]

/-- From the vector (1, 1) the method stops, and close to one of the eigenvalues two and one. -/
example : ∃ N : Nat, ∀ iter : Int, N < iter →
    (zMatEigPower Real.sqrt (1/100) 2 (fun i j => if i = j then (if i = 0 then 2 else 1) else 0) iter (fun _ => 1)).2.2.2 = true ∧
    ∃ p, p < 2 ∧ ((zMatEigPower Real.sqrt (1/100) 2 (fun i j => if i = j then (if i = 0 then 2 else 1) else 0) iter (fun _ => 1)).1 - if p = 0 then 2 else 1) ^ 2 ≤ (2 : Nat) * (1/100) ^ 2 := by
  have e : partSq 2 (fun i j => if i = j then (1:ℝ) else 0) (fun p => if p = 0 then 2 else 1) 2 (fun _ => 1) = 1 := by
    unfold partSq coord
    rw [sum_filter, sum_range_succ, sum_range_succ, sum_range_zero]
    norm_num [sum_range_succ]
  obtain ⟨N, hN⟩ := zMatEigPower_stops (L := 2) (r := 1/4) (tol := 1/100) diag21_base Real.sqrt sqrtOk_real (by norm_num) (by norm_num) (by norm_num)
    (by intro p hp; interval_cases p <;> norm_num) (fun _ => 1) (by norm_num [sum_range_succ])
    (by rw [e]; norm_num) (by rw [e]; norm_num [sum_range_succ])
  refine ⟨N, fun iter hi => ⟨hN iter hi, ?_⟩⟩
  exact zMatEigPower_near diag21_base Real.sqrt sqrtOk_real (1/100) (by norm_num) iter (fun _ => 1) (by norm_num [sum_range_succ]) (hN iter hi)

/-! ## Without a dominant eigenvalue -/

/-- One and minus one on the diagonal, from the vector (3, 4): the method never stops by its test, and the number it delivers after any number of
iterations, -7/25, is not close to an eigenvalue. -/
theorem zMatEigPower_violated_oscillates (sqrt : ℚ → ℚ) (h25 : sqrt 25 = 5) (h1 : sqrt 1 = 1) (tol : ℚ) (ht : 0 ≤ tol) (ht1 : tol < 1/2) (iter : Int) :
    (zMatEigPower sqrt tol 2 (fun i j => if i = j then (if i = 0 then 1 else -1) else 0) iter (fun i => if i = 0 then 3 else 4)).1 = -(7/25) ∧
    (zMatEigPower sqrt tol 2 (fun i j => if i = j then (if i = 0 then 1 else -1) else 0) iter (fun i => if i = 0 then 3 else 4)).2.2.2 = false := by
  have main : ∀ (k : Nat) (s : PS ℚ), (∃ c : ℚ, 0 < c ∧ sqrt (c * c) = c ∧ tol < c ∧ s.x 0 = 3/5 * c ∧ (s.x 1 = 4/5 * c ∨ s.x 1 = -(4/5 * c))) →
      (powerLoop sqrt tol 2 (fun i j => if i = j then (if i = 0 then 1 else -1) else 0) (k+1) s).val = -(7/25) ∧
      (powerLoop sqrt tol 2 (fun i j => if i = j then (if i = 0 then 1 else -1) else 0) (k+1) s).done = false := by
    intro k
    have step : ∀ s : PS ℚ, (∃ c : ℚ, 0 < c ∧ sqrt (c * c) = c ∧ tol < c ∧ s.x 0 = 3/5 * c ∧ (s.x 1 = 4/5 * c ∨ s.x 1 = -(4/5 * c))) →
        normalize sqrt tol 2 s.x s.ev 0 = 3/5 ∧ (normalize sqrt tol 2 s.x s.ev 1 = 4/5 ∨ normalize sqrt tol 2 s.x s.ev 1 = -(4/5)) := by
      rintro s ⟨c, hc, hs, htc, e0, e1⟩
      have hl : inner 2 s.x s.x = c * c := by
        rw [inner_spec, sum_range_succ, sum_range_succ, sum_range_zero, e0]
        rcases e1 with e1 | e1 <;> rw [e1] <;> ring
      unfold normalize
      simp only [hl, hs]
      rw [if_neg (by rw [abs_of_pos hc]; exact not_le.2 htc)]
      simp only [e0]
      constructor
      · norm_num
        field_simp
      · rcases e1 with e1 | e1
        · left; rw [e1]; norm_num; field_simp
        · right; rw [e1]; norm_num; field_simp
    have body : ∀ (ev x : Nat → ℚ), ev 0 = 3/5 → (ev 1 = 4/5 ∨ ev 1 = -(4/5)) →
        inner 2 ev (mulVec 2 2 (fun i j => if i = j then (if i = 0 then 1 else -1) else 0) ev x) = -(7/25) ∧
        mulVec 2 2 (fun i j => if i = j then (if i = 0 then 1 else -1) else 0) ev x 0 = 3/5 ∧
        mulVec 2 2 (fun i j => if i = j then (if i = 0 then 1 else -1) else 0) ev x 1 = -ev 1 := by
      intro ev x e0 e1
      refine ⟨?_, ?_, ?_⟩
      · rw [rayleigh]
        rcases e1 with e1 | e1 <;> norm_num [sum_range_succ, e0, e1]
      · rw [mulVec_spec, if_pos (by norm_num)]; norm_num [Ax, sum_range_succ, e0]
      · rw [mulVec_spec, if_pos (by norm_num)]; norm_num [Ax, sum_range_succ]
    induction k with
    | zero =>
      intro s hs
      obtain ⟨a0, a1⟩ := step s hs
      obtain ⟨b0, b1, b2⟩ := body _ s.x a0 a1
      simp only [powerLoop]
      rw [if_neg]
      · exact ⟨b0, rfl⟩
      · intro hc
        have := hc 0 (by norm_num)
        rw [b0, b1, a0, abs_le] at this
        linarith [this.2]
    | succ k ih =>
      intro s hs
      obtain ⟨a0, a1⟩ := step s hs
      obtain ⟨b0, b1, b2⟩ := body _ s.x a0 a1
      rw [powerLoop]
      rw [if_neg]
      · refine ih _ ⟨1, one_pos, by rw [mul_one]; exact h1, by linarith, by rw [mul_one]; exact b1, ?_⟩
        show mulVec _ _ _ _ _ 1 = _ ∨ mulVec _ _ _ _ _ 1 = _
        rw [b2, mul_one]
        rcases a1 with a1 | a1 <;> rw [a1]
        · right; rfl
        · left; norm_num
      · intro hc
        have := hc 0 (by norm_num)
        rw [b0, b1, a0, abs_le] at this
        linarith [this.2]
  obtain ⟨k, hk⟩ : ∃ k, OneD.iterInit iter = k + 1 := by
    unfold OneD.iterInit
    split_ifs with h
    · exact ⟨9999, rfl⟩
    · exact ⟨iter.toNat - 1, by omega⟩
  unfold zMatEigPower
  rw [hk]
  exact main k _ ⟨5, by norm_num, by norm_num [h25], by linarith, by norm_num, by left; norm_num⟩

end Zm.Eig
