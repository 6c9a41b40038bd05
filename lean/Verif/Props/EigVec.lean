import Verif.Model.EigVec
import Verif.Props.Power

/-! # C189, C190: eigenvectors by inverse iteration -/

set_option linter.unusedSectionVars false

namespace Zm.Eig
open Zm Misc LE Finset
variable {K : Type*} [Field K] [LinearOrder K] [IsStrictOrderedRing K]

/-! ## What the power method leaves -/

theorem powerLoop_last (sqrt : K → K) (tol : K) (n : Nat) (m : Nat → Nat → K) (k : Nat) : ∀ s : PS K, s.done = false →
    (∀ i, i < n → (powerLoop sqrt tol n m (k+1) s).x i = ∑ j ∈ range n, m i j * (powerLoop sqrt tol n m (k+1) s).ev j) ∧
    ((powerLoop sqrt tol n m (k+1) s).done = true →
      ∀ i, i < n → |(powerLoop sqrt tol n m (k+1) s).x i - (powerLoop sqrt tol n m (k+1) s).val * (powerLoop sqrt tol n m (k+1) s).ev i| ≤ tol) := by
  have hx : ∀ (ev x : Nat → K) i, i < n → mulVec n n m ev x i = ∑ j ∈ range n, m i j * ev j := by
    intro ev x i hi
    rw [mulVec_spec, if_pos hi]
    rfl
  induction k with
  | zero =>
    intro s _
    simp only [powerLoop]
    generalize normalize sqrt tol n s.x s.ev = ev
    split_ifs with g
    · exact ⟨hx ev s.x, fun _ i hi => by have := g i hi; rwa [neg_mul, ← sub_eq_add_neg] at this⟩
    · exact ⟨hx ev s.x, fun h => by cases h⟩
  | succ k ih =>
    intro s _
    rw [powerLoop]
    generalize normalize sqrt tol n s.x s.ev = ev
    by_cases g : ∀ i, i < n → |mulVec n n m ev s.x i + -inner n ev (mulVec n n m ev s.x) * ev i| ≤ tol
    · rw [if_pos g]
      exact ⟨hx ev s.x, fun _ i hi => by have := g i hi; rwa [neg_mul, ← sub_eq_add_neg] at this⟩
    · rw [if_neg g]; exact ih _ rfl

theorem iterInit_succ (iter : Int) : ∃ k, OneD.iterInit iter = k + 1 := by
  unfold OneD.iterInit
  split_ifs with h
  · exact ⟨9999, rfl⟩
  · exact ⟨iter.toNat - 1, by omega⟩

theorem zMatEigPower_image (sqrt : K → K) (hq : SqrtOk sqrt) (tol : K) (ht : 0 ≤ tol) (n : Nat) (m : Nat → Nat → K) (iter : Int) (x0 : Nat → K)
    (hx : tol * tol < ∑ i ∈ range n, x0 i * x0 i) (p : K × (Nat → K) × (Nat → K) × Bool) (hp : zMatEigPower sqrt tol n m iter x0 = p) :
    ∑ i ∈ range n, p.2.2.1 i * p.2.2.1 i = 1 ∧ p.1 = ∑ i ∈ range n, p.2.2.1 i * ∑ j ∈ range n, m i j * p.2.2.1 j ∧
      (p.1 ≠ 0 → (∀ i, i < n → p.2.1 i * p.1 = ∑ j ∈ range n, m i j * p.2.2.1 j) ∧ (p.2.2.2 = true → ∀ i, i < n → |p.2.1 i - p.2.2.1 i| * |p.1| ≤ tol)) := by
  obtain ⟨k, hk⟩ := iterInit_succ iter
  have h1 := powerLoop_unit sqrt hq tol ht n m k ⟨x0, fun _ => 0, 1, false⟩ (Or.inr hx)
  have h2 := powerLoop_last sqrt tol n m k ⟨x0, fun _ => 0, 1, false⟩ rfl
  subst hp
  unfold zMatEigPower
  rw [hk]
  generalize powerLoop sqrt tol n m (k+1) ⟨x0, fun _ => 0, 1, false⟩ = s at h1 h2
  refine ⟨h1.1, h1.2, fun hv => ?_⟩
  have hv' : s.val ≠ 0 := hv
  simp only [if_neg hv']
  refine ⟨fun i hi => ?_, fun hd i hi => ?_⟩
  · rw [← h2.1 i hi]; field_simp
  · have := h2.2 hd i hi
    rw [← abs_mul]
    have e : (s.x i * (1 / s.val) - s.ev i) * s.val = s.x i - s.val * s.ev i := by field_simp
    rw [e]
    exact this

theorem inverseIter_ok (sqrt : K → K) (tol : K) (n : Nat) (ms : Nat → Nat → K) (hs : ¬ Singular n ms) (iter : Int) (x0 : Nat → K) :
    ∃ B : Nat → Nat → K, inverseIter sqrt tol 0 n ms iter x0 = .ok (zMatEigPower sqrt tol n B iter x0) ∧
      ∀ i j, i < n → j < n → ∑ k ∈ range n, ms i k * B k j = if i = j then 1 else 0 := by
  obtain ⟨x, e, hx⟩ := zMatInv_correct_partial n ms hs
  refine ⟨unfin n x, by unfold inverseIter; rw [e]; rfl, fun i j hi hj => ?_⟩
  have := hx i hi ⟨j, hj⟩
  simp only [unfin, hj, dif_pos]
  exact this

/-- The vector that the inverse iteration leaves, before the matrix that was inverted. -/
theorem inverseIter_image (sqrt : K → K) (hq : SqrtOk sqrt) (tol : K) (ht : 0 ≤ tol) (n : Nat) (ms : Nat → Nat → K) (hs : ¬ Singular n ms) (iter : Int) (x0 : Nat → K)
    (hx : tol * tol < ∑ i ∈ range n, x0 i * x0 i) :
    ∃ p, inverseIter sqrt tol 0 n ms iter x0 = .ok p ∧ ∑ i ∈ range n, p.2.2.1 i * p.2.2.1 i = 1 ∧
      (p.1 ≠ 0 → (∀ i, i < n → (∑ j ∈ range n, ms i j * p.2.1 j) * p.1 = p.2.2.1 i) ∧ (p.2.2.2 = true → ∀ i, i < n → |p.2.1 i - p.2.2.1 i| * |p.1| ≤ tol)) := by
  obtain ⟨B, e, hB⟩ := inverseIter_ok sqrt tol n ms hs iter x0
  refine ⟨_, e, ?_⟩
  obtain ⟨a1, a2, a3⟩ := zMatEigPower_image sqrt hq tol ht n B iter x0 hx _ rfl
  refine ⟨a1, fun hv => ⟨fun i hi => ?_, (a3 hv).2⟩⟩
  generalize zMatEigPower sqrt tol n B iter x0 = p at a1 a2 a3 hv
  have h1 := (a3 hv).1
  calc (∑ j ∈ range n, ms i j * p.2.1 j) * p.1 = ∑ j ∈ range n, ms i j * (p.2.1 j * p.1) := by rw [sum_mul]; exact sum_congr rfl fun j _ => by ring
    _ = ∑ j ∈ range n, ms i j * ∑ k ∈ range n, B j k * p.2.2.1 k := sum_congr rfl fun j hj => by rw [h1 j (mem_range.1 hj)]
    _ = ∑ k ∈ range n, (∑ j ∈ range n, ms i j * B j k) * p.2.2.1 k := by
      simp only [mul_sum, sum_mul]
      rw [sum_comm]
      exact sum_congr rfl fun _ _ => sum_congr rfl fun _ _ => by ring
    _ = p.2.2.1 i := by
      rw [sum_congr rfl fun k hk => by rw [hB i k hi (mem_range.1 hk)]]
      simp [hi]

theorem shiftMat_mul (n : Nat) (m : Nat → Nat → K) (s : K) (x : Nat → K) (i : Nat) (hi : i < n) :
    ∑ j ∈ range n, shiftMat m s i j * x j = ∑ j ∈ range n, m i j * x j + s * x i := by
  have : ∀ j, shiftMat m s i j * x j = m i j * x j + if j = i then s * x i else 0 := by
    intro j
    unfold shiftMat
    by_cases h : i = j
    · subst h; simp; ring
    · rw [if_neg h, if_neg (Ne.symm h), add_zero]
  simp only [this, sum_add_distrib, sum_ite_eq', mem_range, hi, if_true]

/-! ## Real eigenvalues -/

/-- C189, a column for a real eigenvalue, for every matrix for which the shifted matrix is regular and for every initial vector: there are a number `θ` and a
unit vector `e` so that the image of the column differs from `eigval + shift` times the column exactly by `(θ - eigval - shift) e`.  If the iteration ended by its
test, then the column differs from the unit vector by at most the tolerance times `θ - eigval - shift`, and it satisfies the equation of an eigenvector for `θ` up
to the tolerance times the square of that number.  The only exception is a zero Rayleigh quotient of the inverse. -/
theorem eigVecReal_residual_partial (sqrt : K → K) (hq : SqrtOk sqrt) (tol : K) (ht : 0 ≤ tol) (shift : K) (n : Nat) (m : Nat → Nat → K) (eigval : K)
    (hs : ∀ z : Nat → K, (∃ j, j < n ∧ z j ≠ 0) → ∃ i, i < n ∧ ∑ j ∈ range n, m i j * z j ≠ (eigval + shift) * z i) (iter : Int) (x0 : Nat → K) (hx : tol * tol < ∑ i ∈ range n, x0 i * x0 i) :
    ∃ p, eigVecReal sqrt tol 0 shift n m eigval iter x0 = .ok p ∧ (p.1 ≠ 0 → ∃ (θ : K) (e : Nat → K), ∑ i ∈ range n, e i * e i = 1 ∧ θ - (eigval + shift) = 1 / p.1 ∧
      (∀ i, i < n → ∑ j ∈ range n, m i j * p.2.1 j = (eigval + shift) * p.2.1 i + (θ - (eigval + shift)) * e i) ∧
      (p.2.2.2 = true → ∀ i, i < n → |p.2.1 i - e i| ≤ tol * |θ - (eigval + shift)| ∧
        |∑ j ∈ range n, m i j * p.2.1 j - θ * p.2.1 i| ≤ tol * (θ - (eigval + shift)) ^ 2)) := by
  have hs' : ¬ Singular n (shiftMat m (-eigval - shift)) := by
    rintro ⟨z, hz, h0⟩
    obtain ⟨i, hi, h1⟩ := hs z hz
    have := h0 i hi
    rw [shiftMat_mul n m _ z i hi] at this
    exact h1 (by linear_combination this)
  obtain ⟨p, e, h1, h2⟩ := inverseIter_image sqrt hq tol ht n _ hs' iter x0 hx
  refine ⟨p, e, fun hv => ⟨eigval + shift + 1 / p.1, p.2.2.1, h1, by ring, ?_⟩⟩
  have h3 : ∀ i, i < n → ∑ j ∈ range n, m i j * p.2.1 j = (eigval + shift) * p.2.1 i + 1 / p.1 * p.2.2.1 i := by
    intro i hi
    have := (h2 hv).1 i hi
    rw [shiftMat_mul n m _ _ i hi] at this
    rw [← this]
    field_simp
    ring
  have e0 : eigval + shift + 1 / p.1 - (eigval + shift) = 1 / p.1 := by ring
  rw [e0]
  refine ⟨h3, fun hd i hi => ?_⟩
  have h4 := (h2 hv).2 hd i hi
  have hv' : 0 < |p.1| := abs_pos.2 hv
  have h5 : |p.2.1 i - p.2.2.1 i| ≤ tol * |1 / p.1| := by
    rw [abs_div, abs_one, mul_one_div, le_div_iff₀ hv']
    exact h4
  refine ⟨h5, ?_⟩
  rw [h3 i hi]
  have e1 : (eigval + shift) * p.2.1 i + 1 / p.1 * p.2.2.1 i - (eigval + shift + 1 / p.1) * p.2.1 i = -(1 / p.1 * (p.2.1 i - p.2.2.1 i)) := by ring
  rw [e1, abs_neg, abs_mul, ← sq_abs (1 / p.1), sq, ← mul_assoc, mul_comm |1 / p.1|]
  exact mul_le_mul_of_nonneg_right h5 (abs_nonneg _)

/-! ## Symmetric matrices: the iteration stops at the nearest eigenvalue -/

theorem coord_inner {n : Nat} {V : Nat → Nat → K} (h : OrthRows n V) (x y : Nat → K) : ∑ p ∈ range n, coord n V x p * coord n V y p = ∑ i ∈ range n, x i * y i := by
  have h1 := coord_sq h (fun i => y i - -1 * x i)
  have e : ∀ p, coord n V (fun i => y i - -1 * x i) p = coord n V y p + coord n V x p := by
    intro p; rw [coord_lin n V x y _ (-1) (fun _ _ => rfl)]; ring
  have h2 := coord_sq h x
  have h3 := coord_sq h y
  simp only [e] at h1
  have a1 : ∀ p, (coord n V y p + coord n V x p) ^ 2 = coord n V y p ^ 2 + coord n V x p ^ 2 + 2 * (coord n V x p * coord n V y p) := by intro p; ring
  have a2 : ∀ i, (y i - -1 * x i) * (y i - -1 * x i) = y i * y i + x i * x i + 2 * (x i * y i) := by intro i; ring
  simp only [a1, a2, sum_add_distrib, ← mul_sum] at h1
  linarith

/-- The inverse of the shifted matrix has the same eigenvectors. -/
theorem eigenBase_inv {n : Nat} {M V B : Nat → Nat → K} {l : Nat → K} (h : EigenBase n M V l) (μ : K) (hl : ∀ p, p < n → l p ≠ μ)
    (hB : ∀ i j, i < n → j < n → ∑ k ∈ range n, shiftMat M (-μ) i k * B k j = if i = j then 1 else 0) : EigenBase n B V (fun p => 1 / (l p - μ)) := by
  have hA : Matrix.of (fun i j : Fin n => shiftMat M (-μ) i j) * Matrix.of (fun i j : Fin n => B i j) = 1 := by
    ext i j
    rw [Matrix.mul_apply, Matrix.one_apply]
    have := hB i j i.2 j.2
    rw [← Fin.sum_univ_eq_sum_range (fun k => shiftMat M (-μ) i k * B k j) n] at this
    simp only [Matrix.of_apply, this, Fin.ext_iff]
  have hA' := mul_eq_one_comm.1 hA
  have hB' : ∀ i j, i < n → j < n → ∑ k ∈ range n, B i k * shiftMat M (-μ) k j = if i = j then 1 else 0 := by
    intro i j hi hj
    have := congrFun (congrFun hA' ⟨i, hi⟩) ⟨j, hj⟩
    rw [Matrix.mul_apply, Matrix.one_apply] at this
    rw [← Fin.sum_univ_eq_sum_range (fun k => B i k * shiftMat M (-μ) k j) n]
    simpa [Fin.ext_iff] using this
  have hsym : ∀ i j, i < n → j < n → shiftMat M (-μ) i j = shiftMat M (-μ) j i := by
    intro i j hi hj
    unfold shiftMat
    by_cases e : i = j
    · subst e; rfl
    · rw [if_neg e, if_neg (Ne.symm e)]; exact h.symm i j hi hj
  refine ⟨fun i j hi hj => ?_, h.rows, fun i p hi hp => ?_⟩
  · -- B i j = Σ_k B i k (A B)ᵀ...
    have h1 : ∀ a b, a < n → b < n → B a b = ∑ k ∈ range n, B a k * ∑ q ∈ range n, B b q * shiftMat M (-μ) q k := by
      intro a b ha hb
      rw [sum_congr rfl fun k hk => by rw [hB' b k hb (mem_range.1 hk)]]
      simp [hb]
    rw [h1 i j hi hj, h1 j i hj hi]
    simp only [mul_sum]
    rw [sum_comm]
    refine sum_congr rfl fun a ha => sum_congr rfl fun b hb => ?_
    rw [hsym a b (mem_range.1 ha) (mem_range.1 hb)]
    ring
  · have h1 : ∀ q, q < n → ∑ j ∈ range n, shiftMat M (-μ) q j * V j p = (l p - μ) * V q p := by
      intro q hq
      rw [shiftMat_mul n M _ (fun j => V j p) q hq, h.eig q p hq hp]
      ring
    have hne : l p - μ ≠ 0 := sub_ne_zero.2 (hl p hp)
    have h2 : ∑ q ∈ range n, B i q * V q p * (l p - μ) = V i p := by
      calc ∑ q ∈ range n, B i q * V q p * (l p - μ) = ∑ q ∈ range n, B i q * ∑ j ∈ range n, shiftMat M (-μ) q j * V j p :=
            sum_congr rfl fun q hq => by rw [h1 q (mem_range.1 hq)]; ring
        _ = ∑ j ∈ range n, (∑ q ∈ range n, B i q * shiftMat M (-μ) q j) * V j p := by
          simp only [mul_sum, sum_mul]
          rw [sum_comm]
          exact sum_congr rfl fun _ _ => sum_congr rfl fun _ _ => by ring
        _ = V i p := by
          rw [sum_congr rfl fun j hj => by rw [hB' i j hi (mem_range.1 hj)]]
          simp [hi]
    rw [← sum_mul] at h2
    rw [← h2]
    field_simp

theorem regular_shift {n : Nat} {M V : Nat → Nat → K} {l : Nat → K} (h : EigenBase n M V l) (μ : K) (hl : ∀ p, p < n → l p ≠ μ) : ¬ Singular n (shiftMat M (-μ)) := by
  rintro ⟨z, ⟨j, hj, hz⟩, h0⟩
  have hm : ∀ i, i < n → μ * z i = ∑ j ∈ range n, M i j * z j := by
    intro i hi
    have := h0 i hi
    rw [shiftMat_mul n M _ z i hi] at this
    linear_combination -this
  have hc : ∀ p, p < n → coord n V z p = 0 := by
    intro p hp
    have h1 := coord_mul h z (fun i => μ * z i) hm p hp
    rw [coord_smul n V z _ μ (fun i _ => mul_comm μ (z i)) p] at h1
    have : (l p - μ) * coord n V z p = 0 := by linear_combination -h1
    rcases mul_eq_zero.1 this with h2 | h2
    · exact absurd (sub_eq_zero.1 h2) (hl p hp)
    · exact h2
  have h2 := coord_sq h.rows z
  rw [sum_eq_zero fun p hp => by rw [hc p (mem_range.1 hp)]; ring] at h2
  have h3 := (sum_eq_zero_iff_of_nonneg (s := range n) (f := fun i => z i * z i) fun i _ => mul_self_nonneg _).1 h2.symm j (mem_range.2 hj)
  exact hz (mul_self_eq_zero.1 h3)

/-- The vector of the power method never loses the dominant part. -/
theorem powerLoop_ratio {n : Nat} {M V : Nat → Nat → ℝ} {l : Nat → ℝ} (h : EigenBase n M V l) (sqrt : ℝ → ℝ) (hq : SqrtOk sqrt) {tol L r t0 : ℝ} (htol : 0 < tol)
    (hL : L ≠ 0) (hr : 0 ≤ r) (hr1 : r ≤ 1) (ht0 : 0 ≤ t0) (hgap : ∀ p, p < n → l p ≠ L → l p ^ 2 ≤ r * L ^ 2) (hlt : tol ^ 2 * (1 + t0) < L ^ 2) (k : Nat) :
    ∀ s : PS ℝ, Ratio n V l L t0 s.x → tol * tol < ∑ i ∈ range n, s.x i * s.x i → Ratio n V l L t0 (powerLoop sqrt tol n M (k+1) s).ev := by
  have step : ∀ s : PS ℝ, Ratio n V l L t0 s.x → tol * tol < ∑ i ∈ range n, s.x i * s.x i →
      Ratio n V l L t0 (normalize sqrt tol n s.x s.ev) ∧ ∑ i ∈ range n, normalize sqrt tol n s.x s.ev i * normalize sqrt tol n s.x s.ev i = 1 := by
    intro s hx hs
    refine ⟨?_, normalize_unit sqrt hq tol htol.le n s.x s.ev (Or.inr hs)⟩
    unfold normalize
    rw [inner_spec]
    obtain ⟨q1, q2⟩ := hq _ (sum_nonneg fun k (_ : k ∈ range n) => mul_self_nonneg (s.x k))
    have hg : tol < sqrt (∑ k ∈ range n, s.x k * s.x k) := by
      by_contra hc
      have := mul_le_mul (not_lt.1 hc) (not_lt.1 hc) q1 htol.le
      rw [q2] at this
      linarith
    rw [if_neg (by rw [abs_of_nonneg q1]; exact not_le.2 hg)]
    refine ratio_smul (c := 1 / sqrt (∑ k ∈ range n, s.x k * s.x k)) ?_ hx fun i hi => by rw [if_pos hi]
    have : 0 < sqrt (∑ k ∈ range n, s.x k * s.x k) := htol.trans hg
    positivity
  induction k with
  | zero =>
    intro s hx hs
    obtain ⟨a1, a2⟩ := step s hx hs
    simp only [powerLoop]
    split_ifs
    · exact a1
    · exact a1
  | succ k ih =>
    intro s hx hs
    obtain ⟨a1, a2⟩ := step s hx hs
    rw [powerLoop]
    generalize normalize sqrt tol n s.x s.ev = ev at a1 a2
    by_cases g : ∀ i, i < n → |mulVec n n M ev s.x i + -inner n ev (mulVec n n M ev s.x) * ev i| ≤ tol
    · rw [if_pos g]; exact a1
    · rw [if_neg g]
      obtain ⟨b1, b2⟩ := ratio_mul h (y := mulVec n n M ev s.x) hL hr hgap a1 (fun i hi => by rw [mulVec_spec, if_pos hi]; rfl)
      refine ih _ ⟨b1.1, b1.2.trans ?_⟩ ?_
      · have h1 : r * t0 ≤ t0 := by nlinarith
        exact mul_le_mul_of_nonneg_right h1 b1.1.le
      · show tol * tol < ∑ i ∈ range n, mulVec n n M ev s.x i * mulVec n n M ev s.x i
        rw [← part_add_rest h.rows l L (mulVec n n M ev s.x), b2]
        have h6 := part_add_rest h.rows l L ev
        rw [a2] at h6
        have h7 : 0 ≤ restSq n V l L (mulVec n n M ev s.x) := sum_nonneg fun _ _ => sq_nonneg _
        have h8 := a1.2
        have h9 := a1.1
        have h10 : 1 ≤ (1 + t0) * partSq n V l L ev := by nlinarith
        have h11 : tol ^ 2 * (1 + t0) * partSq n V l L ev < L ^ 2 * partSq n V l L ev := mul_lt_mul_of_pos_right hlt h9
        have h12 : tol ^ 2 * 1 ≤ tol ^ 2 * ((1 + t0) * partSq n V l L ev) := mul_le_mul_of_nonneg_left h10 (by positivity)
        nlinarith

/-- The Rayleigh quotient of a unit vector with a great part along the dominant eigenvectors. -/
theorem rayleigh_ge {n : Nat} {M V : Nat → Nat → ℝ} {l : Nat → ℝ} (h : EigenBase n M V l) {L b t0 : ℝ} (ht0 : 0 ≤ t0) (hb : 0 ≤ b)
    (hgap : ∀ p, p < n → l p ≠ L → |l p| ≤ b) (hlt : t0 * b < |L|) {ev : Nat → ℝ} (hx : Ratio n V l L t0 ev) (hu : ∑ i ∈ range n, ev i * ev i = 1) :
    |L| - t0 * b ≤ (1 + t0) * |∑ i ∈ range n, ev i * ∑ j ∈ range n, M i j * ev j| := by
  have e1 : ∑ i ∈ range n, ev i * ∑ j ∈ range n, M i j * ev j = ∑ p ∈ range n, l p * coord n V ev p ^ 2 := by
    rw [← coord_inner h.rows ev (fun i => ∑ j ∈ range n, M i j * ev j)]
    refine sum_congr rfl fun p hp => ?_
    rw [coord_mul h ev _ (fun i _ => rfl) p (mem_range.1 hp)]
    ring
  have e2 : ∑ p ∈ range n, l p * coord n V ev p ^ 2 = L * partSq n V l L ev + ∑ p ∈ (range n).filter (fun p => ¬ l p = L), l p * coord n V ev p ^ 2 := by
    rw [← sum_filter_add_sum_filter_not (range n) (fun p => l p = L)]
    congr 1
    unfold partSq
    rw [mul_sum]
    refine sum_congr rfl fun p hp => ?_
    rw [(mem_filter.1 hp).2]
  have e3 : |∑ p ∈ (range n).filter (fun p => ¬ l p = L), l p * coord n V ev p ^ 2| ≤ b * restSq n V l L ev := by
    refine (abs_sum_le_sum_abs _ _).trans ?_
    unfold restSq
    rw [mul_sum]
    refine sum_le_sum fun p hp => ?_
    rw [mem_filter, mem_range] at hp
    rw [abs_mul, abs_of_nonneg (sq_nonneg (coord n V ev p))]
    exact mul_le_mul_of_nonneg_right (hgap p hp.1 hp.2) (sq_nonneg _)
  have h6 := part_add_rest h.rows l L ev
  rw [hu] at h6
  have h8 := hx.2
  have h9 := hx.1
  have h10 : 1 ≤ (1 + t0) * partSq n V l L ev := by nlinarith
  rw [e1, e2]
  have h11 : |L| * partSq n V l L ev - b * restSq n V l L ev ≤ |L * partSq n V l L ev + ∑ p ∈ (range n).filter (fun p => ¬ l p = L), l p * coord n V ev p ^ 2| := by
    have a1 : |L| * partSq n V l L ev = |L * partSq n V l L ev| := by rw [abs_mul, abs_of_pos h9]
    have a2 := abs_sub_abs_le_abs_sub (L * partSq n V l L ev) (-∑ p ∈ (range n).filter (fun p => ¬ l p = L), l p * coord n V ev p ^ 2)
    rw [abs_neg, sub_neg_eq_add] at a2
    linarith
  have h12 : (|L| - t0 * b) * partSq n V l L ev ≤ |L| * partSq n V l L ev - b * restSq n V l L ev := by nlinarith
  have h13 : (|L| - t0 * b) * 1 ≤ (|L| - t0 * b) * ((1 + t0) * partSq n V l L ev) := mul_le_mul_of_nonneg_left h10 (by linarith)
  have h14 : (1 + t0) * ((|L| - t0 * b) * partSq n V l L ev) ≤ (1 + t0) * |L * partSq n V l L ev + ∑ p ∈ (range n).filter (fun p => ¬ l p = L), l p * coord n V ev p ^ 2| :=
    mul_le_mul_of_nonneg_left (h12.trans h11) (by linarith)
  linarith

/-- C189, a symmetric matrix: `eigval + shift` lies within `δ` of an eigenvalue and at least `g` from the others, the rest of the initial vector is at most `t0` times
its part along the eigenvectors of the near eigenvalue, and `k` more iterations reduce the rest below the tolerance.  Then the column is nearly a unit vector, and an eigenvector up to the
tolerance times the square of the distance of `θ`, a number within `(1 + t0) δ g / (g - t0 δ)` of `eigval + shift`. -/
theorem eigVecReal_near_partial {n : Nat} {M V : Nat → Nat → ℝ} {l : Nat → ℝ} (h : EigenBase n M V l) (tol shift eigval L0 δ g t0 : ℝ) (htol : 0 < tol)
    (hδ : 0 < δ) (hL0 : |L0 - (eigval + shift)| = δ) (hg : δ ≤ g) (hgap : ∀ p, p < n → l p ≠ L0 → g ≤ |l p - (eigval + shift)|)
    (ht0 : 0 ≤ t0) (htg : t0 * δ < g) (x0 : Nat → ℝ) (hx : tol ^ 2 < ∑ i ∈ range n, x0 i * x0 i) (hpart : 0 < partSq n V l L0 x0) (hrest : restSq n V l L0 x0 ≤ t0 * partSq n V l L0 x0)
    (hlt : tol ^ 2 * (1 + t0) * δ ^ 2 < 1) (k : Nat) (hk : 4 * t0 * (δ ^ 2 / g ^ 2) ^ k ≤ tol ^ 2 * δ ^ 2) :
    ∃ p, eigVecReal Real.sqrt tol 0 shift n M eigval (k+1) x0 = .ok p ∧ p.2.2.2 = true ∧ ∃ (θ : ℝ) (e : Nat → ℝ), |θ - (eigval + shift)| ≤ (1 + t0) * δ * g / (g - t0 * δ) ∧ ∑ i ∈ range n, e i * e i = 1 ∧
      ∀ i, i < n → |p.2.1 i - e i| ≤ tol * |θ - (eigval + shift)| ∧ |∑ j ∈ range n, M i j * p.2.1 j - θ * p.2.1 i| ≤ tol * (θ - (eigval + shift)) ^ 2 := by
  set μ := eigval + shift with hμ
  have hg0 : 0 < g := hδ.trans_le hg
  have hl0 : L0 ≠ μ := by
    rintro rfl
    rw [sub_self, abs_zero] at hL0
    linarith
  have hl : ∀ p, p < n → l p ≠ μ := by
    intro p hp e
    by_cases e' : l p = L0
    · exact hl0 (e'.symm.trans e)
    · have := hgap p hp e'
      rw [e, sub_self, abs_zero] at this
      linarith
  have hsing := regular_shift h μ hl
  obtain ⟨B, eB, hB⟩ := inverseIter_ok Real.sqrt tol n _ hsing (k+1) x0
  have hb := eigenBase_inv h μ hl hB
  have hLne : L0 - μ ≠ 0 := sub_ne_zero.2 hl0
  have hiff : ∀ p, p < n → (1 / (l p - μ) = 1 / (L0 - μ) ↔ l p = L0) := by
    intro p hp
    rw [one_div, one_div, inv_inj]
    constructor
    · intro e; linarith
    · intro e; rw [e]
  have ep : ∀ x, partSq n V (fun p => 1 / (l p - μ)) (1 / (L0 - μ)) x = partSq n V l L0 x := by
    intro x
    unfold partSq
    rw [filter_congr fun p hp => hiff p (mem_range.1 hp)]
  have er : ∀ x, restSq n V (fun p => 1 / (l p - μ)) (1 / (L0 - μ)) x = restSq n V l L0 x := by
    intro x
    unfold restSq
    rw [filter_congr fun p hp => not_congr (hiff p (mem_range.1 hp))]
  have hL2 : (1 / (L0 - μ)) ^ 2 = 1 / δ ^ 2 := by rw [div_pow, one_pow, ← sq_abs (L0 - μ), hL0]
  have hLa : |1 / (L0 - μ)| = 1 / δ := by rw [abs_div, abs_one, hL0]
  have hLnz : 1 / (L0 - μ) ≠ 0 := one_div_ne_zero hLne
  have hgapa : ∀ p, p < n → 1 / (l p - μ) ≠ 1 / (L0 - μ) → |1 / (l p - μ)| ≤ 1 / g := by
    intro p hp hne
    rw [abs_div, abs_one]
    exact one_div_le_one_div_of_le hg0 (hgap p hp fun e => hne ((hiff p hp).2 e))
  have hgap2 : ∀ p, p < n → 1 / (l p - μ) ≠ 1 / (L0 - μ) → (1 / (l p - μ)) ^ 2 ≤ δ ^ 2 / g ^ 2 * (1 / (L0 - μ)) ^ 2 := by
    intro p hp hne
    rw [hL2]
    have e : δ ^ 2 / g ^ 2 * (1 / δ ^ 2) = (1 / g) ^ 2 := by field_simp
    rw [e, ← sq_abs]
    exact pow_le_pow_left₀ (abs_nonneg _) (hgapa p hp hne) 2
  have hr1 : δ ^ 2 / g ^ 2 ≤ 1 := by
    rw [div_le_one (by positivity)]
    exact pow_le_pow_left₀ hδ.le hg 2
  have hr0 : 0 ≤ δ ^ 2 / g ^ 2 := by positivity
  have hlt' : tol ^ 2 * (1 + t0) < (1 / (L0 - μ)) ^ 2 := by
    rw [hL2, lt_div_iff₀ (by positivity)]
    exact hlt
  have hRat : Ratio n V (fun p => 1 / (l p - μ)) (1 / (L0 - μ)) t0 x0 := by
    unfold Ratio
    rw [ep, er]
    exact ⟨hpart, hrest⟩
  have hx' : tol * tol < ∑ i ∈ range n, x0 i * x0 i := by rw [← sq]; exact hx
  have hit : OneD.iterInit (k+1) = k + 1 := by
    unfold OneD.iterInit
    rw [if_neg (by omega)]
    omega
  have hst := powerLoop_stops hb Real.sqrt sqrtOk_real htol hLnz hr0 hr1 hgap2 hlt' k ⟨x0, fun _ => 0, 1, false⟩ t0 ht0 le_rfl hRat hx' (by
    rw [hL2]
    have : 4 * (1 / δ ^ 2) * t0 * (δ ^ 2 / g ^ 2) ^ k = 4 * t0 * (δ ^ 2 / g ^ 2) ^ k / δ ^ 2 := by ring
    rw [this, div_le_iff₀ (by positivity)]
    exact hk)
  have hrt := powerLoop_ratio hb Real.sqrt sqrtOk_real htol hLnz hr0 hr1 ht0 hgap2 hlt' k ⟨x0, fun _ => 0, 1, false⟩ hRat hx'
  obtain ⟨a1, a2, -⟩ := zMatEigPower_image Real.sqrt sqrtOk_real tol htol.le n B (k+1) x0 hx' _ rfl
  have hreg : ∀ z : Nat → ℝ, (∃ j, j < n ∧ z j ≠ 0) → ∃ i, i < n ∧ ∑ j ∈ range n, M i j * z j ≠ (eigval + shift) * z i := by
    intro z hz
    by_contra hc
    push Not at hc
    refine hsing ⟨z, hz, fun i hi => ?_⟩
    rw [shiftMat_mul n M _ z i hi, hc i hi, hμ]
    ring
  obtain ⟨p, e, hp⟩ := eigVecReal_residual_partial Real.sqrt sqrtOk_real tol htol.le shift n M eigval hreg (k+1) x0 hx'
  have e' := e
  unfold eigVecReal at e'
  have eμ : -eigval - shift = -μ := by rw [hμ]; ring
  rw [eμ, eB] at e'
  cases e'
  have hdone : (zMatEigPower Real.sqrt tol n B (k+1) x0).2.2.2 = true := by
    unfold zMatEigPower
    rw [hit]
    exact hst
  have hev : Ratio n V (fun p => 1 / (l p - μ)) (1 / (L0 - μ)) t0 (zMatEigPower Real.sqrt tol n B (k+1) x0).2.2.1 := by
    unfold zMatEigPower
    rw [hit]
    exact hrt
  have hge := rayleigh_ge hb ht0 (b := 1 / g) (by positivity) hgapa (by rw [hLa, mul_one_div, div_lt_div_iff₀ hg0 hδ]; linarith) hev a1
  rw [← a2, hLa] at hge
  generalize zMatEigPower Real.sqrt tol n B (k+1) x0 = p at e hp hdone hge
  have hd0 : 0 < g - t0 * δ := by linarith
  have hpos : 0 < 1 / δ - t0 * (1 / g) := by
    have : 1 / δ - t0 * (1 / g) = (g - t0 * δ) / (δ * g) := by field_simp
    rw [this]
    positivity
  have hv : p.1 ≠ 0 := by
    intro e0
    rw [e0, abs_zero, mul_zero] at hge
    linarith
  obtain ⟨θ, u, b1, b2, b3, b4⟩ := hp hv
  refine ⟨p, e, hdone, θ, u, ?_, b1, b4 hdone⟩
  have hv' : 0 < |p.1| := abs_pos.2 hv
  rw [b2, abs_div, abs_one, div_le_div_iff₀ hv' hd0]
  have : (1 / δ - t0 * (1 / g)) * (δ * g) = g - t0 * δ := by field_simp
  have h2 := mul_le_mul_of_nonneg_right hge (show 0 ≤ δ * g by positivity)
  rw [this] at h2
  linarith

/-- Two and one on the diagonal, the eigenvalue one with a shift of 1/100. -/
example : ∃ p, eigVecReal Real.sqrt (1/100) 0 (1/100) 2 (fun i j => if i = j then (if i = 0 then 2 else 1) else 0) 1 10 (fun _ => 1) = .ok p ∧ p.2.2.2 = true ∧
    ∃ θ : ℝ, |θ - 101/100| ≤ 3/100 ∧ ∀ i, i < 2 → |∑ j ∈ range 2, (if i = j then (if i = 0 then 2 else 1) else 0) * p.2.1 j - θ * p.2.1 i| ≤ 1/100 * (3/100) ^ 2 := by
  have e1 : partSq 2 (fun i j => if i = j then (1:ℝ) else 0) (fun p => if p = 0 then 2 else 1) 1 (fun _ => 1) = 1 := by
    unfold partSq coord
    rw [sum_filter, sum_range_succ, sum_range_succ, sum_range_zero]
    norm_num [sum_range_succ]
  have e2 : restSq 2 (fun i j => if i = j then (1:ℝ) else 0) (fun p => if p = 0 then 2 else 1) 1 (fun _ => 1) = 1 := by
    unfold restSq coord
    rw [sum_filter, sum_range_succ, sum_range_succ, sum_range_zero]
    norm_num [sum_range_succ]
  obtain ⟨p, h1, h2, θ, u, h3, -, h4⟩ := eigVecReal_near_partial diag21_base (1/100) (1/100) 1 1 (1/100) (99/100) 1 (by norm_num) (by norm_num)
    (by norm_num [abs_of_neg]) (by norm_num)
    (by intro p hp; interval_cases p <;> norm_num) (by norm_num) (by norm_num) (fun _ => 1)
    (by norm_num [sum_range_succ]) (by rw [e1]; norm_num) (by rw [e1, e2]; norm_num) (by norm_num) 9 (by norm_num)
  have e3 : (1:ℝ) + 1/100 = 101/100 := by norm_num
  rw [e3] at h3 h4
  have h5 : |θ - 101/100| ≤ 3/100 := h3.trans (by norm_num)
  refine ⟨p, h1, h2, θ, h5, fun i hi => (h4 i hi).2.trans ?_⟩
  rw [← sq_abs]
  exact mul_le_mul_of_nonneg_left (pow_le_pow_left₀ (abs_nonneg _) h5 2) (by norm_num)

/-! ## A shifted matrix that is singular -/

theorem powerLoop_ident (sqrt : K → K) (hq : SqrtOk sqrt) (tol : K) (ht : 0 ≤ tol) (n : Nat) (B : Nat → Nat → K) (hB : ∀ i j, i < n → j < n → B i j = if i = j then 1 else 0)
    (k : Nat) (x0 : Nat → K) (hx : ∑ i ∈ range n, x0 i * x0 i = 1) (ht1 : tol < 1) :
    (powerLoop sqrt tol n B (k+1) ⟨x0, fun _ => 0, 1, false⟩).val = 1 ∧ ∀ i, i < n → (powerLoop sqrt tol n B (k+1) ⟨x0, fun _ => 0, 1, false⟩).x i = x0 i := by
  have hsq : sqrt 1 = 1 := by
    obtain ⟨q1, q2⟩ := hq 1 zero_le_one
    nlinarith
  have hn : ∀ i, i < n → normalize sqrt tol n x0 (fun _ => 0) i = x0 i := by
    intro i hi
    unfold normalize
    simp only [inner_spec, hx, hsq]
    rw [if_neg (by rw [abs_one]; exact not_le.2 ht1), if_pos hi]
    norm_num
  have hm : ∀ i, i < n → mulVec n n B (normalize sqrt tol n x0 fun _ => 0) x0 i = x0 i := by
    intro i hi
    rw [mulVec_spec, if_pos hi]
    unfold Ax
    rw [sum_congr rfl fun j hj => by rw [hB i j hi (mem_range.1 hj), hn j (mem_range.1 hj)]]
    simp [hi]
  have hv : inner n (normalize sqrt tol n x0 fun _ => 0) (mulVec n n B (normalize sqrt tol n x0 fun _ => 0) x0) = 1 := by
    rw [inner_spec, ← hx]
    exact sum_congr rfl fun i hi => by rw [hn i (mem_range.1 hi), hm i (mem_range.1 hi)]
  rw [powerLoop]
  dsimp only
  rw [hv, if_pos]
  · exact ⟨rfl, hm⟩
  · intro i hi
    rw [hn i hi, hm i hi, neg_mul, one_mul, add_neg_cancel, abs_zero]
    exact ht

/-- C189 is violated where `eigval + shift` is an eigenvalue, too: `zMatInv` does not report that the matrix is singular, so the loop that would choose another shift is never
entered, and the random vector comes out.  The matrix with 0, `shift` and 1 on the diagonal, its eigenvalue 0, and a random vector in the direction of (2, 2, 1): the column
is far from any eigenvector. -/
theorem eigVecReal_singular_violated (sqrt : K → K) (hq : SqrtOk sqrt) (tol : K) (ht : 0 ≤ tol) (ht1 : tol < 1) (shift : K) (iter : Int) :
    ∃ p, eigVecReal sqrt tol 0 shift 3 (fun i j => if i = j then (if i = 0 then 0 else if i = 1 then shift else 1) else 0) 0 iter (fun i => if i = 2 then 1/3 else 2/3) = .ok p ∧
      ∀ θ : K, ∃ i, i < 3 ∧ 1/5 ≤ |∑ j ∈ range 3, (if i = j then (if i = 0 then 0 else if i = 1 then shift else 1) else 0) * p.2.1 j - θ * p.2.1 i| := by
  obtain ⟨k, hk⟩ := iterInit_succ iter
  unfold eigVecReal inverseIter
  rw [zMatInv_singular_wrong 3 (by norm_num) _ ⟨fun j => if j = 1 then 1 else 0, ⟨1, by norm_num, by norm_num⟩, fun i hi => by
    interval_cases i <;> simp [shiftMat, sum_range_succ]⟩]
  refine ⟨_, rfl, fun θ => ?_⟩
  unfold zMatEigPower
  rw [hk]
  obtain ⟨h1, h2⟩ := powerLoop_ident sqrt hq tol ht 3 (unfin 3 fun i j => if i = j.val then 1 else 0) (fun i j hi hj => by simp [unfin, hj]) k
    (fun i => if i = 2 then 1/3 else 2/3) (by norm_num [sum_range_succ]) ht1
  generalize powerLoop sqrt tol 3 (unfin 3 fun i j => if i = j.val then 1 else 0) (k+1) ⟨fun i => if i = 2 then 1/3 else 2/3, fun _ => 0, 1, false⟩ = s at h1 h2
  simp only [h1, if_neg one_ne_zero]
  by_cases hθ : 3/10 ≤ θ
  · refine ⟨0, by norm_num, ?_⟩
    simp only [sum_range_succ, sum_range_zero]
    rw [h2 0 (by norm_num), h2 1 (by norm_num), h2 2 (by norm_num)]
    norm_num
    rw [abs_of_nonneg (by linarith)]
    linarith
  · refine ⟨2, by norm_num, ?_⟩
    simp only [sum_range_succ, sum_range_zero]
    rw [h2 0 (by norm_num), h2 1 (by norm_num), h2 2 (by norm_num)]
    norm_num
    refine le_trans ?_ (le_abs_self _)
    linarith

/-! ## Complex eigenvalues -/

theorem cplxMat_top (n : Nat) (m : Nat → Nat → ℝ) (re im shift : ℝ) (w : Nat → ℝ) (i : Nat) (hi : i < n) :
    ∑ j ∈ range (2 * n), cplxMat n m re im shift i j * w j = ∑ j ∈ range n, m i j * w j - (re + shift) * w i + im * w (i + n) := by
  rw [two_mul, sum_range_add]
  have e1 : ∀ j ∈ range n, cplxMat n m re im shift i j * w j = m i j * w j - if j = i then (re + shift) * w i else 0 := by
    intro j hj
    unfold cplxMat
    rw [if_pos hi, if_pos (mem_range.1 hj)]
    by_cases e : i = j
    · subst e; simp; ring
    · rw [if_neg e, if_neg (Ne.symm e), sub_zero]
  have e2 : ∀ j ∈ range n, cplxMat n m re im shift i (n + j) * w (n + j) = if j = i then im * w (i + n) else 0 := by
    intro j hj
    unfold cplxMat
    rw [if_pos hi, if_neg (by omega)]
    by_cases e : j = i
    · subst e; rw [if_pos (by omega), if_pos rfl, add_comm n j]
    · rw [if_neg (by omega), if_neg e, zero_mul]
  rw [sum_congr rfl e1, sum_congr rfl e2, sum_sub_distrib]
  simp [hi]

theorem cplxMat_bottom (n : Nat) (m : Nat → Nat → ℝ) (re im shift : ℝ) (w : Nat → ℝ) (i : Nat) (hi : i < n) :
    ∑ j ∈ range (2 * n), cplxMat n m re im shift (i + n) j * w j = ∑ j ∈ range n, m i j * w (j + n) - (re + shift) * w (i + n) - im * w i := by
  rw [two_mul, sum_range_add]
  have e1 : ∀ j ∈ range n, cplxMat n m re im shift (i + n) j * w j = if j = i then -(im * w i) else 0 := by
    intro j hj
    unfold cplxMat
    rw [if_neg (by omega), if_pos (mem_range.1 hj)]
    by_cases e : j = i
    · subst e; rw [if_pos rfl, if_pos rfl, neg_mul]
    · rw [if_neg (by omega), if_neg e, zero_mul]
  have e2 : ∀ j ∈ range n, cplxMat n m re im shift (i + n) (n + j) * w (n + j) = m i j * w (j + n) - if j = i then (re + shift) * w (i + n) else 0 := by
    intro j hj
    unfold cplxMat
    rw [if_neg (by omega), if_neg (by omega), Nat.add_sub_cancel, Nat.add_sub_cancel_left, add_comm n j]
    by_cases e : j = i
    · subst e; rw [if_pos rfl, if_pos rfl]; ring
    · rw [if_neg (by omega), if_neg e, sub_zero]
  rw [sum_congr rfl e1, sum_congr rfl e2, sum_sub_distrib]
  simp [hi]
  ring

theorem cnormalize_unit (tol : ℝ) (ht : 0 ≤ tol) (n : Nat) (u : Nat → ℂ) (h : tol < Real.sqrt (∑ i ∈ range n, Complex.normSq (u i))) :
    (∀ i, cnormalize tol n u i = u i / (Real.sqrt (∑ i ∈ range n, Complex.normSq (u i)) : ℝ)) ∧ ∑ i ∈ range n, Complex.normSq (cnormalize tol n u i) = 1 := by
  have hs : 0 ≤ ∑ i ∈ range n, Complex.normSq (u i) := sum_nonneg fun _ _ => Complex.normSq_nonneg _
  have hr := Real.mul_self_sqrt hs
  have e : ∀ i, cnormalize tol n u i = u i / (Real.sqrt (∑ i ∈ range n, Complex.normSq (u i)) : ℝ) := by
    intro i
    unfold cnormalize
    rw [if_neg (by rw [abs_of_nonneg (Real.sqrt_nonneg _)]; exact not_le.2 h)]
  refine ⟨e, ?_⟩
  simp only [e, Complex.normSq_div, Complex.normSq_ofReal, hr]
  rw [← sum_div]
  refine div_self ?_
  intro e0
  rw [e0, Real.sqrt_zero] at h
  linarith

/-- The number is no eigenvalue of the real matrix. -/
def NoEig (n : Nat) (m : Nat → Nat → ℝ) (μ : ℂ) : Prop := ∀ z : Nat → ℂ, (∃ j, j < n ∧ z j ≠ 0) → ∃ i, i < n ∧ ∑ j ∈ range n, (m i j : ℂ) * z j ≠ μ * z i

theorem regular_cplx (n : Nat) (m : Nat → Nat → ℝ) (eigval : ℂ) (shift : ℝ) (h : NoEig n m (eigval + shift)) : ¬ Singular (2 * n) (cplxMat n m eigval.re eigval.im shift) := by
  rintro ⟨w, ⟨j, hj, hw⟩, h0⟩
  obtain ⟨i, hi, h1⟩ := h (fun i => ⟨w i, w (i + n)⟩) (by
    by_cases hjn : j < n
    · exact ⟨j, hjn, fun e => hw (congrArg Complex.re e)⟩
    · refine ⟨j - n, by omega, fun e => hw ?_⟩
      have := congrArg Complex.im e
      simpa [Nat.sub_add_cancel (not_lt.1 hjn)] using this)
  have t := h0 i (by omega)
  have b := h0 (i + n) (by omega)
  rw [cplxMat_top n m _ _ _ w i hi] at t
  rw [cplxMat_bottom n m _ _ _ w i hi] at b
  refine h1 ?_
  have sr : (∑ j ∈ range n, (m i j : ℂ) * (⟨w j, w (j + n)⟩ : ℂ)).re = ∑ j ∈ range n, m i j * w j := by
    rw [Complex.re_sum]; exact sum_congr rfl fun j _ => by simp [Complex.mul_re]
  have si : (∑ j ∈ range n, (m i j : ℂ) * (⟨w j, w (j + n)⟩ : ℂ)).im = ∑ j ∈ range n, m i j * w (j + n) := by
    rw [Complex.im_sum]; exact sum_congr rfl fun j _ => by simp [Complex.mul_im]
  apply Complex.ext
  · rw [sr]
    simp only [Complex.mul_re, Complex.add_re, Complex.ofReal_re, Complex.ofReal_im, Complex.add_im]
    linarith
  · rw [si]
    simp only [Complex.mul_im, Complex.add_re, Complex.ofReal_re, Complex.ofReal_im, Complex.add_im]
    linarith

/-- C190, the columns for a pair of complex eigenvalues: unit vectors, conjugate to each other, and the image of the first differs from `eigval + shift` times it
exactly by a complex vector of the length `1 / (v r)`, where `v` is the value that the power method found for the inverse of the matrix of twice the size and `r` is the
length of the vector it found.  If the iteration ended by its test, then every element satisfies the equation of an eigenvector for the number `eigval + shift + 1 / v`, with real and
imaginary parts up to the tolerance times `1 / (v² r)`. -/
theorem eigVecComplex_residual_partial (tol : ℝ) (ht : 0 ≤ tol) (shift : ℝ) (n : Nat) (m : Nat → Nat → ℝ) (eigval : ℂ) (iter : Int) (x0 : Nat → ℝ)
    (hno : NoEig n m (eigval + shift)) (hx : tol * tol < ∑ i ∈ range (2 * n), x0 i * x0 i) :
    ∃ p u1 u2, inverseIter Real.sqrt tol 0 (2 * n) (cplxMat n m eigval.re eigval.im shift) iter x0 = .ok p ∧ eigVecComplex tol 0 shift n m eigval iter x0 = .ok (u1, u2) ∧
      (p.1 ≠ 0 → tol < Real.sqrt (∑ i ∈ range n, Complex.normSq ⟨p.2.1 i, p.2.1 (i + n)⟩) →
        let r := Real.sqrt (∑ i ∈ range n, Complex.normSq ⟨p.2.1 i, p.2.1 (i + n)⟩)
        ∑ i ∈ range n, Complex.normSq (u1 i) = 1 ∧ (∀ i, u2 i = starRingEnd ℂ (u1 i)) ∧
        ∑ i ∈ range n, Complex.normSq (∑ j ∈ range n, (m i j : ℂ) * u1 j - (eigval + shift) * u1 i) = (1 / (p.1 * r)) ^ 2 ∧
        (p.2.2.2 = true → ∀ i, i < n → |(∑ j ∈ range n, (m i j : ℂ) * u1 j - (eigval + shift + 1 / p.1) * u1 i).re| ≤ tol / (p.1 ^ 2 * r) ∧
          |(∑ j ∈ range n, (m i j : ℂ) * u1 j - (eigval + shift + 1 / p.1) * u1 i).im| ≤ tol / (p.1 ^ 2 * r))) := by
  have hs := regular_cplx n m eigval shift hno
  obtain ⟨p, e, h1, h2⟩ := inverseIter_image Real.sqrt sqrtOk_real tol ht (2 * n) _ hs iter x0 hx
  refine ⟨p, _, _, e, by unfold eigVecComplex; rw [e]; rfl, fun hv hr => ?_⟩
  obtain ⟨h3, h4⟩ := h2 hv
  obtain ⟨v, w, ev, d⟩ := p
  simp only at h1 h3 h4 hv hr ⊢
  obtain ⟨n1, n2⟩ := cnormalize_unit tol ht n (fun i => ⟨w i, w (i + n)⟩) hr
  have hr' : Real.sqrt (∑ i ∈ range n, Complex.normSq ⟨w i, -w (i + n)⟩) = Real.sqrt (∑ i ∈ range n, Complex.normSq ⟨w i, w (i + n)⟩) := by
    congr 1
    exact sum_congr rfl fun i _ => by simp [Complex.normSq_mk]
  obtain ⟨n3, -⟩ := cnormalize_unit tol ht n (fun i => ⟨w i, -w (i + n)⟩) (by rw [hr']; exact hr)
  rw [hr'] at n3
  set r := Real.sqrt (∑ i ∈ range n, Complex.normSq ⟨w i, w (i + n)⟩) with hrdef
  have hr0 : 0 < r := lt_of_le_of_lt ht hr
  have key : ∀ i, i < n → ∑ j ∈ range n, (m i j : ℂ) * cnormalize tol n (fun i => ⟨w i, w (i + n)⟩) j - (eigval + shift) * cnormalize tol n (fun i => ⟨w i, w (i + n)⟩) i =
      (⟨ev i, ev (i + n)⟩ : ℂ) / ((v * r : ℝ) : ℂ) := by
    intro i hi
    have t := h3 i (by omega)
    have b := h3 (i + n) (by omega)
    rw [cplxMat_top n m _ _ _ w i hi] at t
    rw [cplxMat_bottom n m _ _ _ w i hi] at b
    simp only [n1, ← mul_div_assoc]
    rw [← sum_div, ← sub_div]
    have hne : ((v * r : ℝ) : ℂ) ≠ 0 := by
      rw [Complex.ofReal_ne_zero]; positivity
    have hne2 : (r : ℂ) ≠ 0 := Complex.ofReal_ne_zero.2 hr0.ne'
    rw [div_eq_div_iff hne2 hne]
    have : (∑ j ∈ range n, (m i j : ℂ) * (⟨w j, w (j + n)⟩ : ℂ) - (eigval + shift) * (⟨w i, w (i + n)⟩ : ℂ)) * (v : ℂ) = (⟨ev i, ev (i + n)⟩ : ℂ) := by
      have sr : (∑ j ∈ range n, (m i j : ℂ) * (⟨w j, w (j + n)⟩ : ℂ)).re = ∑ j ∈ range n, m i j * w j := by
        rw [Complex.re_sum]; exact sum_congr rfl fun j _ => by simp [Complex.mul_re]
      have si : (∑ j ∈ range n, (m i j : ℂ) * (⟨w j, w (j + n)⟩ : ℂ)).im = ∑ j ∈ range n, m i j * w (j + n) := by
        rw [Complex.im_sum]; exact sum_congr rfl fun j _ => by simp [Complex.mul_im]
      apply Complex.ext
      · rw [← t]
        simp only [Complex.mul_re, Complex.sub_re, Complex.add_re, Complex.ofReal_re, Complex.ofReal_im, Complex.add_im, sr]
        ring
      · rw [← b]
        simp only [Complex.mul_im, Complex.sub_im, Complex.add_re, Complex.ofReal_re, Complex.ofReal_im, Complex.add_im, si]
        ring
    rw [← this]
    push_cast
    ring
  refine ⟨n2, fun i => ?_, ?_, fun hd i hi => ?_⟩
  · rw [n1, n3, map_div₀, Complex.conj_ofReal]
    congr 1
  · rw [sum_congr rfl fun i hi => by rw [key i (mem_range.1 hi), Complex.normSq_div, Complex.normSq_ofReal, Complex.normSq_mk], ← sum_div, sum_add_distrib]
    rw [two_mul, sum_range_add] at h1
    simp only [add_comm n] at h1
    rw [h1]
    ring
  · have e1 : ∑ j ∈ range n, (m i j : ℂ) * cnormalize tol n (fun i => ⟨w i, w (i + n)⟩) j - (eigval + shift + 1 / v) * cnormalize tol n (fun i => ⟨w i, w (i + n)⟩) i =
        (⟨(ev i - w i) / (v * r), (ev (i + n) - w (i + n)) / (v * r)⟩ : ℂ) := by
      have : ∀ a b : ℂ, a - (eigval + shift + 1 / v) * b = (a - (eigval + shift) * b) - b / v := by intro a b; ring
      rw [this, key i hi, n1]
      have hvc : (v : ℂ) ≠ 0 := Complex.ofReal_ne_zero.2 hv
      have hne2 : (r : ℂ) ≠ 0 := Complex.ofReal_ne_zero.2 hr0.ne'
      have h5 : (⟨ev i, ev (i + n)⟩ : ℂ) / ((v * r : ℝ) : ℂ) - (⟨w i, w (i + n)⟩ : ℂ) / (r : ℂ) / (v : ℂ) = (⟨ev i - w i, ev (i + n) - w (i + n)⟩ : ℂ) / ((v * r : ℝ) : ℂ) := by
        have : (⟨ev i - w i, ev (i + n) - w (i + n)⟩ : ℂ) = (⟨ev i, ev (i + n)⟩ : ℂ) - (⟨w i, w (i + n)⟩ : ℂ) := by apply Complex.ext <;> simp
        rw [this]
        push_cast
        field_simp
      rw [h5]
      apply Complex.ext
      · rw [Complex.div_ofReal_re]
      · rw [Complex.div_ofReal_im]
    rw [e1]
    have hv' : 0 < |v| := abs_pos.2 hv
    have bound : ∀ a b : ℝ, |a - b| * |v| ≤ tol → |(b - a) / (v * r)| ≤ tol / (v ^ 2 * r) := by
      intro a b hab
      rw [abs_div, abs_mul, abs_of_pos hr0, abs_sub_comm, ← sq_abs v, div_le_div_iff₀ (by positivity) (by positivity)]
      nlinarith [mul_le_mul_of_nonneg_right hab (show 0 ≤ |v| * r by positivity)]
    exact ⟨bound _ _ (h4 hd i (by omega)), bound _ _ (h4 hd (i + n) (by omega))⟩

/-- The matrix of a quarter turn has the eigenvalues i and -i; i + 1/10 is none of them. -/
theorem turn_noEig : NoEig 2 (fun i j => if i = j then 0 else if i = 0 then -1 else 1) (Complex.I + (1/10 : ℝ)) := by
  rintro z ⟨j, hj, hz⟩
  by_contra hc
  push Not at hc
  have h0 := hc 0 (by norm_num)
  have h1 := hc 1 (by norm_num)
  simp only [sum_range_succ, sum_range_zero] at h0 h1
  norm_num at h0 h1
  have h2 : z 1 = 0 := by
    have e : (1 + (Complex.I + 1/10) ^ 2) * z 1 = 0 := by linear_combination (-(Complex.I + 1/10)) * h1 - h0
    rcases mul_eq_zero.1 e with e | e
    · exfalso
      have := congrArg Complex.im e
      norm_num [Complex.ext_iff, sq] at this
    · exact e
  have h3 : z 0 = 0 := by rw [h1, h2, mul_zero]
  interval_cases j
  · exact hz h3
  · exact hz h2

example : ∃ p u1 u2, inverseIter Real.sqrt (1/1000) 0 (2 * 2) (cplxMat 2 (fun i j => if i = j then 0 else if i = 0 then -1 else 1) Complex.I.re Complex.I.im (1/10)) 10 (fun _ => 1) = .ok p ∧
    eigVecComplex (1/1000) 0 (1/10) 2 (fun i j => if i = j then 0 else if i = 0 then -1 else 1) Complex.I 10 (fun _ => 1) = .ok (u1, u2) := by
  obtain ⟨p, u1, u2, h1, h2, -⟩ := eigVecComplex_residual_partial (1/1000) (by norm_num) (1/10) 2 _ Complex.I 10 (fun _ => 1) turn_noEig (by norm_num [sum_range_succ])
  exact ⟨p, u1, u2, h1, h2⟩

/-- C190 is violated where `eigval + shift` is an eigenvalue: as in C189 the singular matrix is not reported and the random vector comes out.  The matrix of a quarter turn, the estimate
`i - shift`: the column is (1, 0), whose image is orthogonal to it. -/
theorem eigVecComplex_singular_violated (tol : ℝ) (ht : 0 ≤ tol) (ht1 : tol < 1) (shift : ℝ) (iter : Int) :
    ∃ u1 u2, eigVecComplex tol 0 shift 2 (fun i j => if i = j then 0 else if i = 0 then -1 else 1) (Complex.I - shift) iter (fun i => if i = 0 then 1 else 0) = .ok (u1, u2) ∧
      ∀ θ : ℂ, ∑ j ∈ range 2, (((if 1 = j then 0 else 1 : ℝ)) : ℂ) * u1 j - θ * u1 1 = 1 := by
  obtain ⟨k, hk⟩ := iterInit_succ iter
  have hre : (Complex.I - (shift : ℂ)).re = -shift := by simp
  have him : (Complex.I - (shift : ℂ)).im = 1 := by simp
  unfold eigVecComplex inverseIter
  rw [hre, him, zMatInv_singular_wrong (2 * 2) (by norm_num) _ ⟨fun j => if j = 0 then 1 else if j = 3 then -1 else 0, ⟨0, by norm_num, by norm_num⟩, fun i hi => by
    have hi' : i < 4 := by omega
    interval_cases i <;> norm_num [cplxMat, sum_range_succ]⟩]
  refine ⟨_, _, rfl, fun θ => ?_⟩
  unfold zMatEigPower
  rw [hk]
  obtain ⟨h1, h2⟩ := powerLoop_ident Real.sqrt sqrtOk_real tol ht (2 * 2) (unfin (2 * 2) fun i j => if i = j.val then 1 else 0) (fun i j hi hj => by simp [unfin, hj]) k
    (fun i => if i = 0 then 1 else 0) (by norm_num [sum_range_succ]) ht1
  generalize powerLoop Real.sqrt tol (2 * 2) (unfin (2 * 2) fun i j => if i = j.val then 1 else 0) (k+1) ⟨fun i => if i = 0 then 1 else 0, fun _ => 0, 1, false⟩ = s at h1 h2
  have a0 := h2 0 (by norm_num)
  have a1 := h2 1 (by norm_num)
  have a2 := h2 2 (by norm_num)
  have a3 := h2 3 (by norm_num)
  norm_num at a0 a1 a2 a3
  simp only [h1, if_neg one_ne_zero]
  have hn : ∑ i ∈ range 2, Complex.normSq ⟨s.x i, s.x (i + 2)⟩ = 1 := by
    simp [sum_range_succ, a0, a1, a2, a3, Complex.normSq_mk]
  unfold cnormalize
  simp only [hn, Real.sqrt_one, abs_one, if_neg (not_le.2 ht1), sum_range_succ, sum_range_zero, a0, a1, a2, a3]
  have z1 : (⟨0, 0⟩ : ℂ) = 0 := rfl
  have z2 : (⟨1, 0⟩ : ℂ) = 1 := rfl
  norm_num [a0, a1, a2, a3, z1, z2]

/-! ## All columns -/

/-- From the index on, the eigenvalues are real ones and neighbouring conjugate ones. -/
inductive Paired (tol : ℝ) (n : Nat) (eigval : Nat → ℂ) : Nat → Prop
  | stop : Paired tol n eigval n
  | real (i : Nat) : i < n → |(eigval i).im| ≤ tol → Paired tol n eigval (i+1) → Paired tol n eigval i
  | pair (i : Nat) : i + 1 < n → ¬ |(eigval i).im| ≤ tol → eigval (i+1) = starRingEnd ℂ (eigval i) → Paired tol n eigval (i+2) → Paired tol n eigval i

/-- The column belongs to the eigenvalue of its index: the vector that the inverse iteration finds for a real eigenvalue, the first vector for a complex one, or the second
one for the conjugate of its predecessor. -/
def ColumnOf (tol shift : ℝ) (n : Nat) (m : Nat → Nat → ℝ) (eigval : Nat → ℂ) (x0 : Nat → Nat → ℝ) (base : Nat → Nat → ℂ) (c : Nat) : Prop :=
  (|(eigval c).im| ≤ tol ∧ ∃ p, eigVecReal Real.sqrt tol 0 shift n m (eigval c).re 10 (x0 c) = .ok p ∧ ∀ r, base r c = p.2.1 r) ∨
  (¬ |(eigval c).im| ≤ tol ∧ ∃ u1 u2, eigVecComplex tol 0 shift n m (eigval c) 10 (x0 c) = .ok (u1, u2) ∧ ∀ r, base r c = u1 r) ∨
  (∃ d, c = d + 1 ∧ ¬ |(eigval d).im| ≤ tol ∧ eigval c = starRingEnd ℂ (eigval d) ∧ ∃ u1 u2, eigVecComplex tol 0 shift n m (eigval d) 10 (x0 d) = .ok (u1, u2) ∧ ∀ r, base r c = u2 r)

theorem eigVecReal_ok (tol shift : ℝ) (n : Nat) (m : Nat → Nat → ℝ) (eigval : ℝ) (iter : Int) (x0 : Nat → ℝ) (h : NoEig n m ((eigval : ℂ) + shift)) :
    ∃ p, eigVecReal Real.sqrt tol 0 shift n m eigval iter x0 = .ok p := by
  have hs : ¬ Singular n (shiftMat m (-eigval - shift)) := by
    rintro ⟨z, ⟨j, hj, hz⟩, h0⟩
    obtain ⟨i, hi, h1⟩ := h (fun i => (z i : ℂ)) ⟨j, hj, Complex.ofReal_ne_zero.2 hz⟩
    have := h0 i hi
    rw [shiftMat_mul n m _ z i hi] at this
    refine h1 ?_
    have h2 : ∑ j ∈ range n, m i j * z j = (eigval + shift) * z i := by linear_combination this
    exact_mod_cast h2
  obtain ⟨B, e, -⟩ := inverseIter_ok Real.sqrt tol n _ hs iter x0
  exact ⟨_, e⟩

theorem eigVecComplex_ok (tol shift : ℝ) (n : Nat) (m : Nat → Nat → ℝ) (eigval : ℂ) (iter : Int) (x0 : Nat → ℝ) (h : NoEig n m (eigval + shift)) :
    ∃ u1 u2, eigVecComplex tol 0 shift n m eigval iter x0 = .ok (u1, u2) := by
  obtain ⟨B, e, -⟩ := inverseIter_ok Real.sqrt tol (2 * n) _ (regular_cplx n m eigval shift h) iter x0
  exact ⟨_, _, by unfold eigVecComplex; rw [e]; rfl⟩

theorem eigCols_spec (tol shift : ℝ) (n : Nat) (m : Nat → Nat → ℝ) (eigval : Nat → ℂ) (x0 : Nat → Nat → ℝ)
    (hr : ∀ i, i < n → |(eigval i).im| ≤ tol → NoEig n m (((eigval i).re : ℂ) + shift)) (hc : ∀ i, i < n → ¬ |(eigval i).im| ≤ tol → NoEig n m (eigval i + shift))
    (i : Nat) (hp : Paired tol n eigval i) : ∀ (fuel : Nat) (base : Nat → Nat → ℂ), n ≤ i + fuel →
    ∃ base', eigCols tol 0 shift n m eigval 10 x0 fuel i base = .ok base' ∧ (∀ r c, c < i → base' r c = base r c) ∧
      ∀ c, i ≤ c → c < n → ColumnOf tol shift n m eigval x0 base' c := by
  induction hp with
  | stop =>
    intro fuel base _
    refine ⟨base, ?_, fun _ _ _ => rfl, fun c h1 h2 => by omega⟩
    cases fuel <;> simp [eigCols]
  | real i hi him hp ih =>
    intro fuel base hf
    obtain ⟨fuel, rfl⟩ : ∃ f, fuel = f + 1 := ⟨fuel - 1, by omega⟩
    obtain ⟨p, e⟩ := eigVecReal_ok tol shift n m (eigval i).re 10 (x0 i) (hr i hi him)
    obtain ⟨base', h1, h2, h3⟩ := ih fuel (putCol n i (fun r => (p.2.1 r : ℂ)) base) (by omega)
    refine ⟨base', ?_, fun r c hc => ?_, fun c h4 h5 => ?_⟩
    · rw [eigCols, if_pos hi, if_pos him, e]
      exact h1
    · rw [h2 r c (by omega), putCol, if_pos hi, if_neg (by omega)]
    · by_cases h6 : c = i
      · subst h6
        refine Or.inl ⟨him, p, e, fun r => ?_⟩
        rw [h2 r c (by omega), putCol, if_pos hi, if_pos rfl]
      · exact h3 c (by omega) h5
  | pair i hi him hcj hp ih =>
    intro fuel base hf
    obtain ⟨fuel, rfl⟩ : ∃ f, fuel = f + 1 := ⟨fuel - 1, by omega⟩
    obtain ⟨u1, u2, e⟩ := eigVecComplex_ok tol shift n m (eigval i) 10 (x0 i) (hc i (by omega) him)
    obtain ⟨base', h1, h2, h3⟩ := ih fuel (putCol n (i+1) u2 (putCol n i u1 base)) (by omega)
    refine ⟨base', ?_, fun r c hc => ?_, fun c h4 h5 => ?_⟩
    · rw [eigCols, if_pos (by omega), if_neg him, e]
      exact h1
    · rw [h2 r c (by omega), putCol, if_pos (by omega), if_neg (by omega), putCol, if_pos (by omega), if_neg (by omega)]
    · by_cases h6 : c = i
      · subst h6
        refine Or.inr (Or.inl ⟨him, u1, u2, e, fun r => ?_⟩)
        rw [h2 r c (by omega), putCol, if_pos (by omega), if_neg (by omega), putCol, if_pos (by omega), if_pos rfl]
      · by_cases h7 : c = i + 1
        · subst h7
          refine Or.inr (Or.inr ⟨i, rfl, him, hcj, u1, u2, e, fun r => ?_⟩)
          rw [h2 r (i+1) (by omega), putCol, if_pos (by omega), if_pos rfl]
        · exact h3 c (by omega) h5

/-- C190, `zMatEig` behind the eigenvalues: if they are real ones and neighbouring conjugate ones, then every column of the base belongs to the eigenvalue of its index. -/
theorem zMatEigBase_columns_partial (tol shift : ℝ) (n : Nat) (m : Nat → Nat → ℝ) (eigval : Nat → ℂ) (x0 : Nat → Nat → ℝ) (base : Nat → Nat → ℂ) (hp : Paired tol n eigval 0)
    (hr : ∀ i, i < n → |(eigval i).im| ≤ tol → NoEig n m (((eigval i).re : ℂ) + shift)) (hc : ∀ i, i < n → ¬ |(eigval i).im| ≤ tol → NoEig n m (eigval i + shift)) :
    ∃ base', zMatEigBase tol 0 shift n m eigval x0 base = .ok base' ∧ ∀ c, c < n → ColumnOf tol shift n m eigval x0 base' c := by
  obtain ⟨base', h1, -, h3⟩ := eigCols_spec tol shift n m eigval x0 hr hc 0 hp n base (by omega)
  exact ⟨base', h1, fun c hc => h3 c (by omega) hc⟩

/-- The matrix of a quarter turn and its eigenvalues. -/
example : ∃ base', zMatEigBase (1/1000) 0 (1/10) 2 (fun i j => if i = j then 0 else if i = 0 then -1 else 1) (fun i => if i = 0 then Complex.I else -Complex.I) (fun _ _ => 1) (fun _ _ => 0) = .ok base' ∧
    ∀ c, c < 2 → ColumnOf (1/1000) (1/10) 2 (fun i j => if i = j then 0 else if i = 0 then -1 else 1) (fun i => if i = 0 then Complex.I else -Complex.I) (fun _ _ => 1) base' c := by
  refine zMatEigBase_columns_partial _ _ 2 _ _ _ _ (Paired.pair 0 (by norm_num) (by norm_num) (by simp) Paired.stop) ?_ ?_
  · intro i hi h
    exfalso
    interval_cases i <;> norm_num at h
  · intro i hi _
    interval_cases i
    · exact turn_noEig
    · rintro z ⟨j, hj, hz⟩
      obtain ⟨i, hi, h⟩ := turn_noEig (fun i => starRingEnd ℂ (z i)) ⟨j, hj, by simpa using hz⟩
      refine ⟨i, hi, fun e => h ?_⟩
      have := congrArg (starRingEnd ℂ) e
      simp only [map_sum, map_mul, Complex.conj_ofReal, map_add] at this
      simpa using this

/-- C189, `_zMatSymEigBisecR`: every column is the vector that the inverse iteration finds for the eigenvalue of its index. -/
theorem symEigBisecR_columns (sqrt : K → K) (tol shift : K) (n : Nat) (m : Nat → Nat → K) (eigval : Nat → K) (iter : Int) (x0 : Nat → Nat → K) (base : Nat → Nat → K)
    (hs : ∀ c, c < n → ¬ Singular n (shiftMat m (-eigval c - shift))) :
    ∃ base', symEigBisecR sqrt tol 0 shift n m eigval iter x0 base = .ok base' ∧
      ∀ c, c < n → ∃ p, eigVecReal sqrt tol 0 shift n m (eigval c) iter (x0 c) = .ok p ∧ ∀ r, base' r c = p.2.1 r := by
  unfold symEigBisecR
  refine forUpM_ok _ base (fun i b => ∀ c, c < i → ∃ p, eigVecReal sqrt tol 0 shift n m (eigval c) iter (x0 c) = .ok p ∧ ∀ r, b r c = p.2.1 r)
    (Nat.zero_le n) (fun c hc => by omega) fun i b _ hi hb => ?_
  obtain ⟨B, e, -⟩ := inverseIter_ok sqrt tol n _ (hs i hi) iter (x0 i)
  refine ⟨_, by rw [e]; rfl, fun c hc => ?_⟩
  by_cases h : c = i
  · subst h
    exact ⟨_, e, fun r => by rw [if_pos rfl]⟩
  · obtain ⟨p, h1, h2⟩ := hb c (by omega)
    exact ⟨p, h1, fun r => by rw [if_neg h]; exact h2 r⟩

end Zm.Eig
