import Verif.Model.SingVal
import Verif.Props.Hess
import Verif.Props.SVD
import Mathlib.Algebra.Order.BigOperators.Ring.Finset
import Mathlib.Analysis.SpecialFunctions.Sqrt
import Mathlib.Tactic.Linarith
import Mathlib.Tactic.FieldSimp
import Mathlib.Tactic.LinearCombination

/-! # Extreme singular values and the condition number -/

set_option linter.unusedSectionVars false

namespace Zm.Eig
open Zm Misc LE Finset
variable {K : Type*} [Field K] [LinearOrder K] [IsStrictOrderedRing K]

/-! ## Specification -/

/-- The image of a vector of the shorter side of a matrix: `M u` if there are more rows than columns, else the product with the transpose. -/
def svImage (rows cols : Nat) (m : Nat → Nat → K) (u : Nat → K) (k : Nat) : K :=
  if rows > cols then ∑ j ∈ range cols, m k j * u j else ∑ i ∈ range rows, m i k * u i

/-- The square of its length. -/
def gainSq (rows cols : Nat) (m : Nat → Nat → K) (u : Nat → K) : K := ∑ k ∈ range (max rows cols), svImage rows cols m u k ^ 2

/-- The square of the length of a vector of the shorter side. -/
def lenSq (rows cols : Nat) (u : Nat → K) : K := ∑ i ∈ range (min rows cols), u i ^ 2

/-! ## Proofs -/

theorem svSize_eq (rows cols : Nat) : svSize rows cols = min rows cols := by
  unfold svSize
  split_ifs with h
  · rw [min_eq_right (by omega)]
  · rw [min_eq_left (by omega)]

theorem gram_form (s p : Nat) (A : Nat → Nat → K) (u v : Nat → K) :
    ∑ i ∈ range s, u i * ∑ j ∈ range s, (∑ k ∈ range p, A k i * A k j) * v j =
      ∑ k ∈ range p, (∑ i ∈ range s, A k i * u i) * ∑ j ∈ range s, A k j * v j := by
  have h1 : ∀ i, u i * ∑ j ∈ range s, (∑ k ∈ range p, A k i * A k j) * v j = ∑ k ∈ range p, A k i * u i * ∑ j ∈ range s, A k j * v j := by
    intro i
    simp only [sum_mul, mul_sum]
    rw [sum_comm]
    refine sum_congr rfl fun k _ => sum_congr rfl fun j _ => ?_
    ring
  rw [sum_congr rfl fun i _ => h1 i, sum_comm]
  refine sum_congr rfl fun k _ => ?_
  rw [sum_mul]

/-- The product is that of the image map with its transpose. -/
theorem svMat_form (rows cols : Nat) (m : Nat → Nat → K) (u v : Nat → K) :
    ∑ i ∈ range (svSize rows cols), u i * ∑ j ∈ range (svSize rows cols), svMat rows cols m i j * v j =
      ∑ k ∈ range (max rows cols), svImage rows cols m u k * svImage rows cols m v k := by
  unfold svSize svMat svImage
  by_cases h : rows > cols
  · simp only [if_pos h]
    rw [max_eq_left (by omega)]
    simp only [mulMatSelfT_spec]
    exact gram_form cols rows m u v
  · simp only [if_neg h]
    rw [max_eq_right (by omega)]
    simp only [mulMatSelfT_spec]
    exact gram_form rows cols (fun k i => m i k) u v

theorem normalize_unit (sqrt : K → K) (hq : SqrtOk sqrt) (tol : K) (ht : 0 ≤ tol) (n : Nat) (x ev : Nat → K)
    (h : ∑ i ∈ range n, ev i * ev i = 1 ∨ tol * tol < ∑ i ∈ range n, x i * x i) :
    ∑ i ∈ range n, normalize sqrt tol n x ev i * normalize sqrt tol n x ev i = 1 := by
  unfold normalize
  rw [inner_spec]
  obtain ⟨q1, q2⟩ := hq _ (sum_nonneg fun k (_ : k ∈ range n) => mul_self_nonneg (x k))
  by_cases g : |sqrt (∑ k ∈ range n, x k * x k)| ≤ tol
  · rw [if_pos g]
    rcases h with h | h
    · exact h
    · rw [abs_of_nonneg q1] at g
      have := mul_le_mul g g q1 ht
      rw [q2] at this
      exact absurd h (not_lt.2 this)
  · rw [if_neg g]
    have hne : sqrt (∑ k ∈ range n, x k * x k) ≠ 0 := fun e => g (by rw [e, abs_zero]; exact ht)
    generalize hS : sqrt (∑ k ∈ range n, x k * x k) = l at q2 hne
    rw [sum_congr rfl fun i hi => show _ = x i * x i * (1 / (l * l)) by rw [if_pos (mem_range.1 hi)]; field_simp]
    rw [← sum_mul, ← q2]
    field_simp

theorem rayleigh (n : Nat) (m : Nat → Nat → K) (ev x : Nat → K) : inner n ev (mulVec n n m ev x) = ∑ i ∈ range n, ev i * ∑ j ∈ range n, m i j * ev j := by
  rw [inner_spec]
  refine sum_congr rfl fun i hi => ?_
  rw [mulVec_spec, if_pos (mem_range.1 hi)]
  rfl

theorem powerLoop_unit (sqrt : K → K) (hq : SqrtOk sqrt) (tol : K) (ht : 0 ≤ tol) (n : Nat) (m : Nat → Nat → K) (k : Nat) : ∀ s : PS K,
    (∑ i ∈ range n, s.ev i * s.ev i = 1 ∨ tol * tol < ∑ i ∈ range n, s.x i * s.x i) →
    ∑ i ∈ range n, (powerLoop sqrt tol n m (k+1) s).ev i * (powerLoop sqrt tol n m (k+1) s).ev i = 1 ∧
      (powerLoop sqrt tol n m (k+1) s).val = ∑ i ∈ range n, (powerLoop sqrt tol n m (k+1) s).ev i * ∑ j ∈ range n, m i j * (powerLoop sqrt tol n m (k+1) s).ev j := by
  induction k with
  | zero =>
    intro s h
    have key := normalize_unit sqrt hq tol ht n s.x s.ev h
    simp only [powerLoop]
    generalize normalize sqrt tol n s.x s.ev = ev at key
    have hv := rayleigh n m ev s.x
    split_ifs
    · exact ⟨key, hv⟩
    · exact ⟨key, hv⟩
  | succ k ih =>
    intro s h
    have key := normalize_unit sqrt hq tol ht n s.x s.ev h
    rw [powerLoop]
    generalize normalize sqrt tol n s.x s.ev = ev at key
    have hv := rayleigh n m ev s.x
    by_cases g : ∀ i, i < n → |mulVec n n m ev s.x i + -inner n ev (mulVec n n m ev s.x) * ev i| ≤ tol
    · rw [if_pos g]; exact ⟨key, hv⟩
    · rw [if_neg g]; exact ih _ (Or.inl key)

/-- The power method delivers the Rayleigh quotient of a unit vector, whether or not it converged. -/
theorem zMatEigPower_rayleigh (sqrt : K → K) (hq : SqrtOk sqrt) (tol : K) (ht : 0 ≤ tol) (n : Nat) (m : Nat → Nat → K) (iter : Int) (x0 : Nat → K)
    (hx : tol * tol < ∑ i ∈ range n, x0 i * x0 i) :
    ∃ ev : Nat → K, ∑ i ∈ range n, ev i * ev i = 1 ∧ (zMatEigPower sqrt tol n m iter x0).1 = ∑ i ∈ range n, ev i * ∑ j ∈ range n, m i j * ev j := by
  obtain ⟨k, hk⟩ : ∃ k, OneD.iterInit iter = k + 1 := by
    unfold OneD.iterInit
    split_ifs with h
    · exact ⟨9999, rfl⟩
    · exact ⟨iter.toNat - 1, by omega⟩
  have := powerLoop_unit sqrt hq tol ht n m k ⟨x0, fun _ => 0, 1, false⟩ (Or.inr hx)
  unfold zMatEigPower
  rw [hk]
  exact ⟨_, this.1, this.2⟩

/-- The greatest singular value as computed is a gain of the matrix: the length of the image of a unit vector.  So it never exceeds
the true one. -/
theorem zMatSingularValueMax_gain (sqrt : K → K) (hq : SqrtOk sqrt) (tol : K) (ht : 0 ≤ tol) (rows cols : Nat) (m : Nat → Nat → K) (x0 : Nat → K)
    (hx : tol ^ 2 < lenSq rows cols x0) :
    ∃ s u, zMatSingularValueMax sqrt tol rows cols m x0 = .fin s ∧ 0 ≤ s ∧ lenSq rows cols u = 1 ∧ s ^ 2 = gainSq rows cols m u := by
  unfold zMatSingularValueMax
  obtain ⟨u, h1, h2⟩ := zMatEigPower_rayleigh sqrt hq tol ht (svSize rows cols) (svMat rows cols m) 0 x0 (by
    rw [svSize_eq, ← sq]; simpa only [lenSq, sq] using hx)
  rw [svMat_form] at h2
  have h3 : (zMatEigPower sqrt tol (svSize rows cols) (svMat rows cols m) 0 x0).1 = gainSq rows cols m u := by
    rw [h2]; exact sum_congr rfl fun k _ => (sq _).symm
  have h4 : 0 ≤ gainSq rows cols m u := sum_nonneg fun k _ => sq_nonneg _
  rw [h3]
  simp only [dsqrt]
  rw [if_neg (not_lt.2 h4)]
  obtain ⟨q1, q2⟩ := hq _ h4
  refine ⟨_, u, rfl, q1, ?_, by rw [sq]; exact q2⟩
  rw [svSize_eq] at h1
  simpa only [lenSq, sq] using h1

/-- The least singular value as computed, for a matrix of full rank: it is not below the true one (every lower bound of the gains
bounds it) and not above the gain of some unit vector. -/
theorem zMatSingularValueMin_partial (sqrt : K → K) (hq : SqrtOk sqrt) (tol : K) (ht : 0 ≤ tol) (rows cols : Nat) (m : Nat → Nat → K) (x0 : Nat → K)
    (hx : tol ^ 2 < lenSq rows cols x0) (hm : ∀ u : Nat → K, 0 < lenSq rows cols u → 0 < gainSq rows cols m u) :
    ∃ s, zMatSingularValueMin sqrt tol 0 rows cols m x0 = .ok (.fin s) ∧ 0 < s ∧
      (∀ b, (∀ u, b * lenSq rows cols u ≤ gainSq rows cols m u) → b ≤ s ^ 2) ∧ ∃ u, lenSq rows cols u = 1 ∧ s ^ 2 ≤ gainSq rows cols m u := by
  have hlen : ∀ u : Nat → K, lenSq rows cols u = ∑ i ∈ range (svSize rows cols), u i * u i := by
    intro u
    rw [svSize_eq]
    simp only [lenSq, sq]
  have hgain : ∀ u : Nat → K, gainSq rows cols m u = ∑ i ∈ range (svSize rows cols), u i * ∑ j ∈ range (svSize rows cols), svMat rows cols m i j * u j := by
    intro u
    rw [svMat_form]
    exact sum_congr rfl fun k _ => sq _
  have hreg : ¬ Singular (svSize rows cols) (svMat rows cols m) := by
    rintro ⟨z, ⟨j, hj, hz⟩, h⟩
    have h1 : 0 < lenSq rows cols z := by
      rw [hlen]
      exact sum_pos' (fun i _ => mul_self_nonneg _) ⟨j, mem_range.2 hj, mul_self_pos.2 hz⟩
    have h2 := hm z h1
    rw [hgain, sum_eq_zero fun i hi => by rw [h i (mem_range.1 hi), mul_zero]] at h2
    exact lt_irrefl _ h2
  obtain ⟨x, e, hx1⟩ := zMatInv_correct_partial _ _ hreg
  unfold zMatSingularValueMin zMatEigPowerInv
  rw [e]
  simp only [Res.bind]
  obtain ⟨ev, h1, h2⟩ := zMatEigPower_rayleigh sqrt hq tol ht (svSize rows cols) (unfin (svSize rows cols) x) 0 x0 (by rw [← hlen, ← sq]; exact hx)
  have hu : lenSq rows cols ev = 1 := by rw [hlen]; exact h1
  obtain ⟨y, hy⟩ : ∃ y : Nat → K, ∀ i, y i = ∑ j ∈ range (svSize rows cols), unfin (svSize rows cols) x i j * ev j := ⟨_, fun _ => rfl⟩
  rw [sum_congr rfl fun i _ => by rw [← hy i]] at h2
  have hRy : ∀ i, i < svSize rows cols → ∑ k ∈ range (svSize rows cols), svMat rows cols m i k * y k = ev i := by
    intro i hi
    simp only [hy, mul_sum]
    rw [sum_comm]
    have : ∀ j ∈ range (svSize rows cols), ∑ k ∈ range (svSize rows cols), svMat rows cols m i k * (unfin (svSize rows cols) x k j * ev j) = (if i = j then 1 else 0) * ev j := by
      intro j hj
      rw [mem_range] at hj
      have := hx1 i hi ⟨j, hj⟩
      simp only at this
      rw [← this, sum_mul]
      refine sum_congr rfl fun k _ => ?_
      unfold unfin
      rw [dif_pos hj]
      ring
    rw [sum_congr rfl this]
    simp [hi]
  generalize hval : (zMatEigPower sqrt tol (svSize rows cols) (unfin (svSize rows cols) x) 0 x0).1 = val at h2
  have hvy : val = gainSq rows cols m y := by
    rw [h2, hgain]
    refine sum_congr rfl fun i hi => ?_
    rw [hRy i (mem_range.1 hi)]
    ring
  have hcs : val ^ 2 ≤ lenSq rows cols y := by
    have := sum_mul_sq_le_sq_mul_sq (range (svSize rows cols)) ev y
    rw [← h2] at this
    have e1 : ∑ i ∈ range (svSize rows cols), ev i ^ 2 = 1 := by rw [← h1]; exact sum_congr rfl fun i _ => sq _
    have e2 : ∑ i ∈ range (svSize rows cols), y i ^ 2 = lenSq rows cols y := by rw [hlen]; exact sum_congr rfl fun i _ => sq _
    rw [e1, e2, one_mul] at this
    exact this
  have hcs2 : 1 ≤ gainSq rows cols m ev * val := by
    have := sum_mul_sq_le_sq_mul_sq (range (max rows cols)) (svImage rows cols m ev) (svImage rows cols m y)
    rw [← svMat_form, sum_congr rfl fun i hi => by rw [hRy i (mem_range.1 hi)], h1, one_pow] at this
    rw [hvy]
    exact this
  have hpos : 0 < val := by
    rw [hvy]
    apply hm
    have hy0 : 0 ≤ lenSq rows cols y := sum_nonneg fun i _ => sq_nonneg (y i)
    rcases hy0.eq_or_lt with h | h
    · exfalso
      rw [← h] at hcs
      have : val = 0 := pow_eq_zero_iff two_ne_zero |>.1 (le_antisymm hcs (sq_nonneg _))
      rw [this, mul_zero] at hcs2
      linarith
    · exact h
  have hinv : 0 < 1 / val := by positivity
  rw [if_neg hpos.ne']
  unfold dsqrt
  simp only
  rw [if_neg (not_lt.2 hinv.le)]
  obtain ⟨q1, q2⟩ := hq _ hinv.le
  refine ⟨_, rfl, lt_of_le_of_ne q1 (fun h => by rw [← h] at q2; simp at q2; exact hpos.ne' q2.symm), ?_, ev, hu, ?_⟩
  · intro b hb
    rw [sq, q2, le_div_iff₀ hpos]
    have h3 := hb y
    rw [← hvy] at h3
    rcases le_or_gt b 0 with h | h
    · nlinarith
    · have : b * val ^ 2 ≤ val := (mul_le_mul_of_nonneg_left hcs h.le).trans h3
      nlinarith
  · rw [sq, q2, div_le_iff₀ hpos]
    exact hcs2

/-- The condition number as computed, for a matrix of full rank, never exceeds the true one: the square of it is bounded by the
quotient of any upper and lower bound of the gains.  It is infinite only if the true least singular value is below the tolerance. -/
theorem zMatCondNum_partial (sqrt : K → K) (hq : SqrtOk sqrt) (tol : K) (ht : 0 ≤ tol) (rows cols : Nat) (m : Nat → Nat → K) (x0 x1 : Nat → K)
    (hx0 : tol ^ 2 < lenSq rows cols x0) (hx1 : tol ^ 2 < lenSq rows cols x1) (hm : ∀ u : Nat → K, 0 < lenSq rows cols u → 0 < gainSq rows cols m u) :
    (∃ c, zMatCondNum sqrt tol 0 rows cols m x0 x1 = .ok (.fin c) ∧ 0 ≤ c ∧
      ∀ b B, 0 < b → (∀ u, b * lenSq rows cols u ≤ gainSq rows cols m u) → (∀ u, gainSq rows cols m u ≤ B * lenSq rows cols u) → c ^ 2 ≤ B / b) ∨
    (zMatCondNum sqrt tol 0 rows cols m x0 x1 = .ok (.inf false) ∧ ∀ b, (∀ u, b * lenSq rows cols u ≤ gainSq rows cols m u) → b ≤ tol ^ 2) := by
  obtain ⟨smax, u, e1, p1, l1, g1⟩ := zMatSingularValueMax_gain sqrt hq tol ht rows cols m x0 hx0
  obtain ⟨smin, e2, p2, b2, -⟩ := zMatSingularValueMin_partial sqrt hq tol ht rows cols m x1 hx1 hm
  unfold zMatCondNum
  rw [e1, e2]
  simp only [Res.bind, condQuot]
  by_cases h : smin > tol
  · left
    rw [if_pos h]
    refine ⟨_, rfl, div_nonneg p1 p2.le, ?_⟩
    intro b B hb hlo hhi
    have h1 := b2 b hlo
    have h2 := hhi u
    rw [l1, mul_one, ← g1] at h2
    rw [div_pow, div_le_div_iff₀ (by positivity) hb]
    have h3 : 0 ≤ smax ^ 2 := sq_nonneg _
    calc smax ^ 2 * b ≤ smax ^ 2 * smin ^ 2 := mul_le_mul_of_nonneg_left h1 h3
      _ ≤ B * smin ^ 2 := mul_le_mul_of_nonneg_right h2 (sq_nonneg _)
  · right
    rw [if_neg h]
    refine ⟨rfl, fun b hb => (b2 b hb).trans ?_⟩
    exact pow_le_pow_left₀ p2.le (not_lt.1 h) 2

/-- The least singular value of a matrix without full rank is zero; computed it is one, for every such matrix with two or more
rows and columns, and the condition number, which is infinite, is that of a perfectly conditioned matrix times the greatest
singular value. -/
theorem zMatCondNum_singular_violated (sqrt : K → K) (hq : SqrtOk sqrt) (tol : K) (ht : 0 ≤ tol) (ht1 : tol < 1) (rows cols : Nat) (hr : 2 ≤ rows) (hc : 2 ≤ cols)
    (m : Nat → Nat → K) (x0 x1 : Nat → K) (hx0 : tol ^ 2 < lenSq rows cols x0) (hx1 : tol ^ 2 < lenSq rows cols x1)
    (hm : ∃ u : Nat → K, 0 < lenSq rows cols u ∧ gainSq rows cols m u = 0) :
    zMatSingularValueMin sqrt tol 0 rows cols m x1 = .ok (.fin 1) ∧
    zMatCondNum sqrt tol 0 rows cols m x0 x1 = .ok (zMatSingularValueMax sqrt tol rows cols m x0) := by
  have hs : Singular (svSize rows cols) (svMat rows cols m) := by
    obtain ⟨u, hu, hg⟩ := hm
    have hz : ∀ k ∈ range (max rows cols), svImage rows cols m u k = 0 := by
      intro k hk
      have := (sum_eq_zero_iff_of_nonneg fun k _ => sq_nonneg (svImage rows cols m u k)).1 hg k hk
      exact pow_eq_zero_iff two_ne_zero |>.1 this
    refine ⟨u, ?_, ?_⟩
    · by_contra hcon
      push Not at hcon
      rw [lenSq, sum_eq_zero fun i hi => by rw [hcon i (by rw [svSize_eq]; exact mem_range.1 hi)]; ring] at hu
      exact lt_irrefl _ hu
    · intro i hi
      have := svMat_form rows cols m (fun k => if k = i then 1 else 0) u
      rw [sum_eq_zero (s := range (max rows cols)) fun k hk => by rw [hz k hk, mul_zero]] at this
      simpa [hi] using this
  have hone : sqrt 1 = 1 := by
    obtain ⟨q1, q2⟩ := hq 1 zero_le_one
    nlinarith
  have hmin : zMatSingularValueMin sqrt tol 0 rows cols m x1 = .ok (.fin 1) := by
    unfold zMatSingularValueMin zMatEigPowerInv
    rw [zMatInv_singular_wrong _ (by rw [svSize_eq]; omega) _ hs]
    simp only [Res.bind]
    obtain ⟨ev, h1, h2⟩ := zMatEigPower_rayleigh sqrt hq tol ht (svSize rows cols) (unfin (svSize rows cols) fun i j => if i = j.val then 1 else 0) 0 x1 (by
      rw [svSize_eq, ← sq]; simpa only [lenSq, sq] using hx1)
    have h3 : (zMatEigPower sqrt tol (svSize rows cols) (unfin (svSize rows cols) fun i j => if i = j.val then 1 else 0) 0 x1).1 = 1 := by
      refine h2.trans (Eq.trans ?_ h1)
      refine sum_congr rfl fun i hi => ?_
      congr 1
      rw [sum_eq_single i]
      · unfold unfin
        rw [dif_pos (mem_range.1 hi)]
        simp
      · intro j hj hji
        unfold unfin
        rw [dif_pos (mem_range.1 hj)]
        simp [Ne.symm hji]
      · intro h; exact absurd hi h
    rw [h3, if_neg one_ne_zero, div_one]
    simp only [dsqrt]
    rw [if_neg (by norm_num), hone]
  refine ⟨hmin, ?_⟩
  unfold zMatCondNum
  rw [hmin]
  obtain ⟨smax, u, e1, -⟩ := zMatSingularValueMax_gain sqrt hq tol ht rows cols m x0 hx0
  rw [e1]
  simp only [Res.bind, condQuot]
  rw [if_pos ht1, div_one]

/-! ## Examples -/

/-- Two and one on the diagonal: full rank. -/
theorem diag21_gain (u : Nat → ℝ) : gainSq 2 2 (fun i j => if i = j then (if i = 0 then 2 else 1) else 0) u = 4 * u 0 ^ 2 + u 1 ^ 2 := by
  simp [gainSq, svImage, sum_range_succ]
  ring

theorem sqrtOk_real : SqrtOk Real.sqrt := fun x hx => ⟨Real.sqrt_nonneg x, Real.mul_self_sqrt hx⟩

/-- Its condition number is two, and what is computed from any initial vectors is not greater. -/
example (x0 x1 : Nat → ℝ) (h0 : (1/10)^2 < lenSq 2 2 x0) (h1 : (1/10)^2 < lenSq 2 2 x1) :
    ∃ c, zMatCondNum Real.sqrt (1/10) 0 2 2 (fun i j => if i = j then (if i = 0 then 2 else 1) else 0) x0 x1 = .ok (.fin c) ∧ 0 ≤ c ∧ c ^ 2 ≤ 4 := by
  have hl : ∀ u : Nat → ℝ, lenSq 2 2 u = u 0 ^ 2 + u 1 ^ 2 := by intro u; simp [lenSq, sum_range_succ]
  rcases zMatCondNum_partial Real.sqrt sqrtOk_real (1/10) (by norm_num) 2 2 (fun i j => if i = j then (if i = 0 then 2 else 1) else 0) x0 x1 h0 h1
    (by intro u hu; rw [diag21_gain]; rw [hl] at hu; nlinarith [sq_nonneg (u 0)]) with ⟨c, e, h, hb⟩ | ⟨-, hb⟩
  · refine ⟨c, e, h, ?_⟩
    have := hb 1 4 (by norm_num) (by intro u; rw [diag21_gain, hl]; nlinarith [sq_nonneg (u 0)]) (by intro u; rw [diag21_gain, hl]; nlinarith [sq_nonneg (u 1)])
    linarith
  · exfalso
    have := hb 1 (by intro u; rw [diag21_gain, hl]; nlinarith [sq_nonneg (u 0)])
    norm_num at this

/-- One and zero on the diagonal: the least singular value comes out as one. -/
example : zMatSingularValueMin Real.sqrt (1/10) 0 2 2 (fun i j => if i = j then (if i = 0 then 1 else 0) else 0) (fun _ => 1) = .ok (.fin 1) :=
  (zMatCondNum_singular_violated Real.sqrt sqrtOk_real (1/10) (by norm_num) (by norm_num) 2 2 le_rfl le_rfl _ (fun _ => 1) (fun _ => 1)
    (by norm_num [lenSq, sum_range_succ]) (by norm_num [lenSq, sum_range_succ])
    ⟨fun i => if i = 0 then 0 else 1, by norm_num [lenSq, sum_range_succ], by norm_num [gainSq, svImage, sum_range_succ]⟩).1

end Zm.Eig
