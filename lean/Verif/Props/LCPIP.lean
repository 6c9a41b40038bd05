import Verif.Model.LCPIP
import Verif.Props.LEGen
import Verif.Props.LQ
import Mathlib.Algebra.Order.Ring.Rat

/-!
# The interior-point method for complementarity problems: neighbourhood of the path, answers, and where the step is wrong
-/

set_option linter.unusedSectionVars false

namespace Zm.LCPIP
open Zm LE Misc Finset
variable {K : Type*} [Field K] [LinearOrder K] [IsStrictOrderedRing K]

/-! ## Specification -/

/-- The matrix is positive semidefinite (and need not be symmetric). -/
def Psd (P : Prob K) : Prop := ∀ v : Nat → K, 0 ≤ ∑ i ∈ range P.n, v i * ∑ j ∈ range P.n, P.mat i j * v j

/-- Residual of the linear equation. -/
def resid (P : Prob K) (w z : Nat → K) (i : Nat) : K := (∑ j ∈ range P.n, P.mat i j * z j) + P.q i - w i

/-- Square of the distance of the products from the centre `t`. -/
def dist (n : Nat) (w z : Nat → K) (t : K) : K := ∑ i ∈ range n, (w i * z i - t) ^ 2

/-- The point is in the interior, and in the neighbourhood of the path with the radius `β`. -/
structure Near (n : Nat) (β : K) (w z : Nat → K) (t : K) : Prop where
  wpos : ∀ i < n, 0 < w i
  zpos : ∀ i < n, 0 < z i
  tpos : 0 < t
  near : dist n w z t ≤ (β * t) ^ 2

/-! ## Algebra of the two steps -/

/-- A number that moves along a line and does not vanish on the way stays positive. -/
theorem pos_of_path (z d a : K) (hz : 0 < z) (ha : 0 ≤ a) (h : ∀ α, 0 ≤ α → α ≤ a → z + α * d ≠ 0) : 0 < z + a * d := by
  by_contra hc
  have hc := not_lt.1 hc
  have hd : d < 0 := by
    by_contra g
    have := mul_nonneg ha (not_lt.1 g)
    linarith
  refine h (z / -d) (div_nonneg hz.le (by linarith)) ?_ ?_
  · rw [div_le_iff₀ (by linarith)]; linarith
  · have : d ≠ 0 := hd.ne
    rw [div_neg]
    field_simp
    ring

theorem elem_of_dist {n : Nat} {w z : Nat → K} {t r : K} (hr : 0 ≤ r) (h : dist n w z t ≤ r ^ 2) : ∀ i < n, t - r ≤ w i * z i ∧ w i * z i ≤ t + r := by
  intro i hi
  have h1 : (w i * z i - t) ^ 2 ≤ r ^ 2 :=
    (single_le_sum (f := fun i => (w i * z i - t) ^ 2) (fun i _ => sq_nonneg _) (mem_range.2 hi)).trans h
  have h2 := abs_le.1 (abs_le_of_sq_le_sq h1 hr)
  constructor <;> linarith [h2.1, h2.2]

/-- The predictor: a step `a` with `a² = s (1 - a)`, where `s` is not greater than the root of the quadratic equation for the radius 1/2, and
`k2` is not negative. -/
theorem pred_near (n : Nat) (w z dw dz : Nat → K) (t a s : K) (h : Near n (1/4) w z t) (hd : ∀ i < n, z i * dw i + w i * dz i = - (w i * z i))
    (ha0 : 0 < a) (ha1 : a < 1) (hs : 0 ≤ s) (has : a ^ 2 = s * (1 - a)) (hk : 0 ≤ ∑ i ∈ range n, (w i * z i - t) * (dw i * dz i))
    (hq : dist n w z t + 2 * s * (∑ i ∈ range n, (w i * z i - t) * (dw i * dz i)) + s ^ 2 * (∑ i ∈ range n, (dw i * dz i) ^ 2) ≤ (1 / 2 * t) ^ 2) :
    Near n (1/2) (fun i => w i + a * dw i) (fun i => z i + a * dz i) (t * (1 - a)) := by
  set k := ∑ i ∈ range n, (w i * z i - t) * (dw i * dz i) with hk'
  set C := ∑ i ∈ range n, (dw i * dz i) ^ 2 with hC
  have hC0 : 0 ≤ C := sum_nonneg fun i _ => sq_nonneg _
  have hdist : ∀ α : K, dist n (fun i => w i + α * dw i) (fun i => z i + α * dz i) (t * (1 - α)) =
      (1 - α) ^ 2 * dist n w z t + 2 * (1 - α) * α ^ 2 * k + α ^ 4 * C := by
    intro α
    unfold dist
    rw [hk', hC, mul_sum, mul_sum, mul_sum, ← sum_add_distrib, ← sum_add_distrib]
    refine sum_congr rfl fun i hi => ?_
    have := hd i (mem_range.1 hi)
    have e : (w i + α * dw i) * (z i + α * dz i) - t * (1 - α) = (1 - α) * (w i * z i - t) + α ^ 2 * (dw i * dz i) := by
      linear_combination α * this
    rw [e]; ring
  have hpath : ∀ α : K, 0 ≤ α → α ≤ a → dist n (fun i => w i + α * dw i) (fun i => z i + α * dz i) (t * (1 - α)) ≤ (1 / 2 * (t * (1 - α))) ^ 2 := by
    intro α h0 h1
    have h2 : α ^ 2 ≤ s * (1 - α) := by
      have h3 : α ^ 2 * (1 - a) ≤ a ^ 2 * (1 - α) := by
        have : 0 ≤ (a - α) * (α + a - α * a) := mul_nonneg (by linarith) (by nlinarith)
        nlinarith
      rw [has] at h3
      have h4 : 0 < 1 - a := by linarith
      nlinarith
    have h5 : 0 ≤ 1 - α := by linarith
    have h6 : α ^ 4 ≤ s ^ 2 * (1 - α) ^ 2 := by
      have := mul_le_mul h2 h2 (sq_nonneg α) (mul_nonneg hs h5)
      nlinarith
    rw [hdist]
    have h7 : 2 * (1 - α) * α ^ 2 * k ≤ 2 * (1 - α) * (s * (1 - α)) * k :=
      mul_le_mul_of_nonneg_right (mul_le_mul_of_nonneg_left h2 (by linarith)) hk
    have h8 : α ^ 4 * C ≤ s ^ 2 * (1 - α) ^ 2 * C := mul_le_mul_of_nonneg_right h6 hC0
    have h9 := mul_le_mul_of_nonneg_left hq (sq_nonneg (1 - α))
    nlinarith
  have hnz : ∀ i < n, ∀ α : K, 0 ≤ α → α ≤ a → 0 < (w i + α * dw i) * (z i + α * dz i) := by
    intro i hi α h0 h1
    have ht : 0 < t * (1 - α) := mul_pos h.tpos (by linarith)
    have := (elem_of_dist (w := fun i => w i + α * dw i) (z := fun i => z i + α * dz i) (by linarith) (hpath α h0 h1) i hi).1
    linarith
  refine ⟨fun i hi => ?_, fun i hi => ?_, mul_pos h.tpos (by linarith), hpath a ha0.le (le_refl _)⟩
  · refine pos_of_path _ _ _ (h.wpos i hi) ha0.le fun α h0 h1 e => ?_
    have := hnz i hi α h0 h1
    rw [e, zero_mul] at this
    exact lt_irrefl _ this
  · refine pos_of_path _ _ _ (h.zpos i hi) ha0.le fun α h0 h1 e => ?_
    have := hnz i hi α h0 h1
    rw [e, mul_zero] at this
    exact lt_irrefl _ this

/-- The corrector brings the point back to the radius 1/4. -/
theorem corr_near (n : Nat) (w z dw dz : Nat → K) (t : K) (h : Near n (1/2) w z t) (hd : ∀ i < n, z i * dw i + w i * dz i = t - w i * z i)
    (hm : 0 ≤ ∑ i ∈ range n, dw i * dz i) : Near n (1/4) (fun i => w i + dw i) (fun i => z i + dz i) t := by
  have ht := h.tpos
  have hel := elem_of_dist (by linarith) h.near
  have hup : ∀ i < n, dw i * dz i ≤ (w i * z i - t) ^ 2 / (2 * t) := by
    intro i hi
    have hp := (hel i hi).1
    have hw := h.wpos i hi
    have hz := h.zpos i hi
    have h1 : 4 * (w i * z i) * (dw i * dz i) ≤ (w i * z i - t) ^ 2 := by
      have e : (w i * z i - t) ^ 2 = (z i * dw i + w i * dz i) ^ 2 := by rw [hd i hi]; ring
      rw [e]
      nlinarith [sq_nonneg (z i * dw i - w i * dz i)]
    by_cases g : dw i * dz i ≤ 0
    · exact g.trans (div_nonneg (sq_nonneg _) (by linarith))
    · rw [le_div_iff₀ (by linarith)]
      have g := not_le.1 g
      have : 2 * t * (dw i * dz i) ≤ 4 * (w i * z i) * (dw i * dz i) := mul_le_mul_of_nonneg_right (by linarith) g.le
      linarith
  have habs : ∑ i ∈ range n, |dw i * dz i| ≤ 1 / 4 * t := by
    have h1 : ∀ i ∈ range n, |dw i * dz i| ≤ 2 * ((w i * z i - t) ^ 2 / (2 * t)) - dw i * dz i := by
      intro i hi
      have h2 := hup i (mem_range.1 hi)
      have h3 : 0 ≤ (w i * z i - t) ^ 2 / (2 * t) := div_nonneg (sq_nonneg _) (by linarith)
      rw [abs_le]
      constructor <;> linarith
    have h2 := sum_le_sum h1
    rw [sum_sub_distrib, ← mul_sum, ← sum_div] at h2
    have h3 : 2 * ((∑ i ∈ range n, (w i * z i - t) ^ 2) / (2 * t)) ≤ 1 / 4 * t := by
      have h4 : (∑ i ∈ range n, (w i * z i - t) ^ 2) ≤ (1 / 2 * t) ^ 2 := h.near
      rw [← mul_div_assoc, div_le_iff₀ (by linarith)]
      nlinarith
    linarith
  have hone : ∀ i < n, |dw i * dz i| ≤ 1 / 4 * t := fun i hi =>
    (single_le_sum (f := fun i => |dw i * dz i|) (fun i _ => abs_nonneg _) (mem_range.2 hi)).trans habs
  have hprod : ∀ i < n, ∀ α : K, 0 ≤ α → α ≤ 1 → 0 < (w i + α * dw i) * (z i + α * dz i) := by
    intro i hi α h0 h1
    have hp := (hel i hi).1
    have e : (w i + α * dw i) * (z i + α * dz i) = (1 - α) * (w i * z i) + α * t + α ^ 2 * (dw i * dz i) := by
      linear_combination α * hd i hi
    have hx := (abs_le.1 (hone i hi)).1
    rw [e]
    have h2 : (1 - α) * (t - 1 / 2 * t) ≤ (1 - α) * (w i * z i) := mul_le_mul_of_nonneg_left hp (by linarith)
    have h3 : α ^ 2 * (-(1 / 4 * t)) ≤ α ^ 2 * (dw i * dz i) := mul_le_mul_of_nonneg_left hx (sq_nonneg _)
    have h4 : α ^ 2 * t ≤ 1 * t := mul_le_mul_of_nonneg_right (by nlinarith) ht.le
    have h5 := mul_nonneg h0 ht.le
    nlinarith
  refine ⟨fun i hi => ?_, fun i hi => ?_, ht, ?_⟩
  · have := pos_of_path (w i) (dw i) 1 (h.wpos i hi) zero_le_one fun α h0 h1 e => by
      have := hprod i hi α h0 h1
      rw [e, zero_mul] at this
      exact lt_irrefl _ this
    rwa [one_mul] at this
  · have := pos_of_path (z i) (dz i) 1 (h.zpos i hi) zero_le_one fun α h0 h1 e => by
      have := hprod i hi α h0 h1
      rw [e, mul_zero] at this
      exact lt_irrefl _ this
    rwa [one_mul] at this
  · unfold dist
    have e : ∀ i ∈ range n, ((w i + dw i) * (z i + dz i) - t) ^ 2 ≤ |dw i * dz i| * (1 / 4 * t) := by
      intro i hi
      have e : (w i + dw i) * (z i + dz i) - t = dw i * dz i := by linear_combination hd i (mem_range.1 hi)
      rw [e, ← sq_abs, pow_two]
      exact mul_le_mul_of_nonneg_left (hone i (mem_range.1 hi)) (abs_nonneg _)
    refine (sum_le_sum e).trans ?_
    rw [← sum_mul]
    have := mul_le_mul_of_nonneg_right habs (show 0 ≤ 1 / 4 * t by linarith)
    nlinarith

/-! ## The step -/

theorem inner_sq (n : Nat) (v : Nat → K) : inner n v v = ∑ i ∈ range n, v i ^ 2 := by
  rw [inner_spec]; exact sum_congr rfl fun i _ => (pow_two _).symm

/-- **C151** for a positive `k2` the step is the root of the quadratic equation: `a² = s (1 - a)` with the `s` for which the bound of the neighbourhood is
attained. -/
theorem stepLen_pos (P : Prob K) (hsq : SqrtOk P.sqrt) (st : St K) (h : Near P.n (1/4) st.w st.z st.t) (dw dz : Nat → K) (hk : 0 < k2 P st dw dz) :
    ∃ a s, stepLen P st dw dz = .ok a ∧ 0 < a ∧ a < 1 ∧ 0 ≤ s ∧ a ^ 2 = s * (1 - a) ∧
      dist P.n st.w st.z st.t + 2 * s * k2 P st dw dz + s ^ 2 * (∑ i ∈ range P.n, (dw i * dz i) ^ 2) = (1 / 2 * st.t) ^ 2 := by
  have ht := h.tpos
  unfold stepLen
  rw [if_neg hk.ne']
  dsimp only
  rw [inner_sq, inner_sq]
  set k := k2 P st dw dz
  set C := ∑ i ∈ range P.n, (dw i * dz i) ^ 2 with hC
  have hC0 : 0 ≤ C := sum_nonneg fun i _ => sq_nonneg _
  have hoff : ∑ i ∈ range P.n, off st i ^ 2 = dist P.n st.w st.z st.t := rfl
  rw [hoff]
  set E := dist P.n st.w st.z st.t with hE
  have hn : E ≤ (1 / 4 * st.t) ^ 2 := h.near
  set D := 1 / 2 * st.t * (1 / 2 * st.t) - E with hD
  have hD0 : 0 < D := by rw [hD]; nlinarith
  have hk1 : 0 < D / k := div_pos hD0 hk
  set r := 1 + D / k / k * C with hr
  have hr1 : 0 < r := by
    have : 0 ≤ D / k / k * C := mul_nonneg (div_nonneg hk1.le hk.le) hC0
    rw [hr]; linarith
  rw [if_neg (not_lt.2 hr1.le)]
  obtain ⟨q0, q1⟩ := hsq r hr1.le
  set Q := P.sqrt r
  have hQ : 0 < 1 + Q := by linarith
  set s := D / k / (1 + Q) with hs
  have hs0 : 0 < s := div_pos hk1 hQ
  rw [if_neg (fun g => by linarith [g.1]), if_neg hs0.ne']
  have h4 : 0 ≤ 1 + 4 / s := by have := div_pos (show (0:K) < 4 by norm_num) hs0; linarith
  obtain ⟨p0, p1⟩ := hsq (1 + 4 / s) h4
  set ρ := P.sqrt (1 + 4 / s)
  have hρ1 : 1 < ρ := by
    by_contra g
    have g := not_lt.1 g
    have : ρ * ρ ≤ 1 := by nlinarith
    have := div_pos (show (0:K) < 4 by norm_num) hs0
    linarith
  have hρ : 0 < 1 + ρ := by linarith
  have hsk : s * (1 + Q) = D / k := by rw [hs]; field_simp
  have hDk : D / k * k = D := by field_simp
  have hsC : s * C = k * (Q - 1) := by
    have e1 : D / k / k * C = Q * Q - 1 := by rw [q1, hr]; ring
    have e2 : D / k * C = k * (Q * Q - 1) := by rw [← e1]; field_simp
    have e3 : s * (1 + Q) * C = k * (Q - 1) * (1 + Q) := by rw [hsk, e2]; ring
    have := mul_right_cancel₀ hQ.ne' (show s * C * (1 + Q) = k * (Q - 1) * (1 + Q) by rw [← e3]; ring)
    exact this
  refine ⟨2 / (1 + ρ), s, rfl, by positivity, ?_, hs0.le, ?_, ?_⟩
  · rw [div_lt_one hρ]; linarith
  · have hp : s * (ρ * ρ - 1) = 4 := by rw [p1]; field_simp; ring
    have e : 1 - 2 / (1 + ρ) = (ρ - 1) / (1 + ρ) := by field_simp; ring
    rw [e, div_pow, ← mul_div_assoc, div_eq_div_iff (by positivity) hρ.ne']
    linear_combination -(1 + ρ) * hp
  · have : s ^ 2 * C = s * (k * (Q - 1)) := by rw [← hsC]; ring
    rw [this]
    have e : 2 * s * k + s * (k * (Q - 1)) = D := by
      rw [← hDk, ← hsk]; ring
    rw [add_assoc, e, hD]; ring

/-- **C151 is violated** in general: for every point in the neighbourhood and directions for which `k2` is negative, the function either gives up or
returns a step greater than one, which makes the next centre negative. -/
theorem stepLen_neg_violated (P : Prob K) (hsq : SqrtOk P.sqrt) (st : St K) (h : Near P.n (1/4) st.w st.z st.t) (dw dz : Nat → K) (hk : k2 P st dw dz < 0) :
    stepLen P st dw dz = .fail ∨ ∃ a, stepLen P st dw dz = .ok a ∧ 1 < a ∧ st.t * (1 - a) < 0 := by
  have ht := h.tpos
  unfold stepLen
  rw [if_neg hk.ne]
  dsimp only
  rw [inner_sq, inner_sq]
  set k := k2 P st dw dz
  set C := ∑ i ∈ range P.n, (dw i * dz i) ^ 2 with hC
  have hC0 : 0 ≤ C := sum_nonneg fun i _ => sq_nonneg _
  have hoff : ∑ i ∈ range P.n, off st i ^ 2 = dist P.n st.w st.z st.t := rfl
  rw [hoff]
  set E := dist P.n st.w st.z st.t with hE
  have hn : E ≤ (1 / 4 * st.t) ^ 2 := h.near
  set D := 1 / 2 * st.t * (1 / 2 * st.t) - E with hD
  have hD0 : 0 < D := by rw [hD]; nlinarith
  have hk1 : D / k < 0 := div_neg_of_pos_of_neg hD0 hk
  set r := 1 + D / k / k * C with hr
  have hr1 : 0 < r := by
    have : 0 ≤ D / k / k * C := mul_nonneg (div_nonneg_of_nonpos hk1.le hk.le) hC0
    rw [hr]; linarith
  rw [if_neg (not_lt.2 hr1.le)]
  obtain ⟨q0, q1⟩ := hsq r hr1.le
  set Q := P.sqrt r
  set s := D / k / (1 + Q) with hs
  have hs0 : s < 0 := div_neg_of_neg_of_pos hk1 (by linarith)
  by_cases g : -4 < s
  · left; rw [if_pos ⟨hs0, g⟩]
  · right
    rw [if_neg (fun h => g h.2), if_neg hs0.ne]
    have g := not_lt.1 g
    have h4 : 0 ≤ 1 + 4 / s := by
      have : -1 ≤ 4 / s := by rw [le_div_iff_of_neg hs0]; linarith
      linarith
    obtain ⟨p0, p1⟩ := hsq (1 + 4 / s) h4
    set ρ := P.sqrt (1 + 4 / s)
    have hρ1 : ρ < 1 := by
      by_contra g
      have g := not_lt.1 g
      have : 1 ≤ ρ * ρ := by nlinarith
      have := div_neg_of_pos_of_neg (show (0:K) < 4 by norm_num) hs0
      linarith
    have ha : 1 < 2 / (1 + ρ) := by rw [lt_div_iff₀ (by linarith)]; linarith
    exact ⟨_, rfl, ha, mul_neg_of_pos_of_neg ht (by linarith)⟩

/-! ## The directions -/

/-- In the interior the equation of the directions has a unique solution for a positive semidefinite matrix. -/
theorem solve_spec (P : Prob K) (he : P.etol = 0) (hM : Psd P) (st : St K) (hp : PermOn P.n st.idx) (hw : ∀ i < P.n, 0 < st.w i) (hz : ∀ i < P.n, 0 < st.z i) (b : Nat → K) :
    ∃ dz idx, solve P st b = .ok (dz, idx) ∧ PermOn P.n idx ∧ ∀ i < P.n, st.z i * (∑ j ∈ range P.n, P.mat i j * dz j) + st.w i * dz i = b i := by
  have hrow : ∀ (x : Nat → K) i, i < P.n → ∑ j ∈ range P.n, grad P st i j * x j = st.z i * (∑ j ∈ range P.n, P.mat i j * x j) + st.w i * x i := by
    intro x i hi
    have : st.w i * x i = ∑ j ∈ range P.n, if i = j then st.w i * x j else 0 := by
      rw [sum_ite_eq, if_pos (mem_range.2 hi)]
    rw [this, mul_sum, ← sum_add_distrib]
    refine sum_congr rfl fun j hj => ?_
    unfold grad
    by_cases e : i = j
    · rw [if_pos e, if_pos e]; ring
    · rw [if_neg e, if_neg e]; ring
  unfold solve
  rw [he]
  rcases gaussSolveIdx_exact P.n st.idx hp (grad P st) b (fun _ => 0) with ⟨x, idx', e, hp', hs⟩ | ⟨-, y, ⟨k, hk, hy⟩, h0⟩
  · refine ⟨x, idx', e, hp', fun i hi => ?_⟩
    rw [← hrow x i hi, ← hs i hi]
    exact sum_congr rfl fun j _ => rfl
  · exfalso
    have h1 : ∀ i < P.n, ∑ j ∈ range P.n, P.mat i j * y j = - (st.w i / st.z i * y i) := by
      intro i hi
      have h2 := h0 i hi
      rw [hrow y i hi] at h2
      have := (hz i hi).ne'
      have h3 : st.z i * (∑ j ∈ range P.n, P.mat i j * y j) = st.z i * - (st.w i / st.z i * y i) := by
        rw [show st.z i * - (st.w i / st.z i * y i) = - (st.w i * y i) by field_simp]
        linarith
      exact mul_left_cancel₀ this h3
    have h2 := hM y
    rw [sum_congr rfl (g := fun i => - (st.w i / st.z i * y i ^ 2)) (fun i hi => by rw [h1 i (mem_range.1 hi)]; ring), sum_neg_distrib] at h2
    have h3 : 0 < ∑ i ∈ range P.n, st.w i / st.z i * y i ^ 2 :=
      sum_pos' (fun i hi => mul_nonneg (div_nonneg (hw i (mem_range.1 hi)).le (hz i (mem_range.1 hi)).le) (sq_nonneg _))
        ⟨k, mem_range.2 hk, mul_pos (div_pos (hw k hk) (hz k hk)) (by positivity)⟩
    linarith

theorem res_eq (P : Prob K) (st : St K) (i : Nat) (hi : i < P.n) : res P st i = resid P st.w st.z i := by
  unfold res resid
  rw [mulVec_spec, if_pos hi]; rfl

/-- The predictor direction: Newton's equations for the products zero and for the residual. -/
theorem pred_spec (P : Prob K) (he : P.etol = 0) (hM : Psd P) (st : St K) (hp : PermOn P.n st.idx) (hw : ∀ i < P.n, 0 < st.w i) (hz : ∀ i < P.n, 0 < st.z i) :
    ∃ dw dz idx, pred P st = .ok (dw, dz, idx) ∧ PermOn P.n idx ∧ (∀ i < P.n, st.z i * dw i + st.w i * dz i = - (st.w i * st.z i)) ∧
      ∀ i < P.n, (∑ j ∈ range P.n, P.mat i j * dz j) - dw i = - resid P st.w st.z i := by
  obtain ⟨dz, idx, e, h1, h2⟩ := solve_spec P he hM st hp hw hz (fun i => - ((st.w i + res P st i) * st.z i))
  unfold pred
  rw [e]
  have hdw : ∀ i < P.n, mulVec P.n P.n P.mat dz (fun _ => 0) i + res P st i = (∑ j ∈ range P.n, P.mat i j * dz j) + res P st i := by
    intro i hi
    rw [mulVec_spec, if_pos hi]; rfl
  refine ⟨_, dz, idx, rfl, h1, ?_, ?_⟩
  · intro i hi
    have := h2 i hi
    dsimp only
    rw [hdw i hi]
    linear_combination this
  · intro i hi
    dsimp only
    rw [hdw i hi, ← res_eq P st i hi]; ring

/-- The corrector direction: Newton's equations for the products `t`, the residual being kept. -/
theorem corr_spec (P : Prob K) (he : P.etol = 0) (hM : Psd P) (st : St K) (hp : PermOn P.n st.idx) (hw : ∀ i < P.n, 0 < st.w i) (hz : ∀ i < P.n, 0 < st.z i) :
    ∃ dw dz idx, corr P st = .ok (dw, dz, idx) ∧ PermOn P.n idx ∧ (∀ i < P.n, st.z i * dw i + st.w i * dz i = st.t - st.w i * st.z i) ∧
      (∀ i < P.n, dw i = ∑ j ∈ range P.n, P.mat i j * dz j) := by
  obtain ⟨dz, idx, e, h1, h2⟩ := solve_spec P he hM st hp hw hz (fun i => st.t - st.w i * st.z i)
  unfold corr
  rw [e]
  have hdw : ∀ i < P.n, mulVec P.n P.n P.mat dz (fun _ => 0) i = ∑ j ∈ range P.n, P.mat i j * dz j := by
    intro i hi
    rw [mulVec_spec, if_pos hi]; rfl
  refine ⟨_, dz, idx, rfl, h1, ?_, hdw⟩
  intro i hi
  have := h2 i hi
  dsimp only
  rw [hdw i hi]
  linear_combination this

/-! ## The loop -/

/-- The test of the loop. -/
def Small (P : Prob K) (st : St K) : Prop := (∀ i < P.n, |resid P st.w st.z i| ≤ P.tol) ∧ |∑ i ∈ range P.n, st.w i * st.z i| ≤ P.tol

theorem small_iff (P : Prob K) (st : St K) :
    ((∀ i < P.n, zIsTol (res P st i) P.tol = true) ∧ zIsTol (gap P st) P.tol = true) ↔ Small P st := by
  unfold Small gap
  simp only [zIsTol, decide_eq_true_eq, inner_spec]
  refine and_congr ⟨fun h i hi => ?_, fun h i hi => ?_⟩ Iff.rfl
  · rw [← res_eq P st i hi]; exact h i hi
  · rw [res_eq P st i hi]; exact h i hi

/-- **C150** one turn from a point in the neighbourhood, for a positive semidefinite matrix, if `k2` is positive: the next point is in the neighbourhood of
the smaller centre, and the residual has been scaled by the same number as the centre. -/
theorem turn_spec (P : Prob K) (he : P.etol = 0) (hsq : SqrtOk P.sqrt) (hM : Psd P) (st st' : St K) (hp : PermOn P.n st.idx) (h : Near P.n (1/4) st.w st.z st.t)
    (done : Bool) (hr : turn P st = .ok (st', done, true)) :
    (done = true → st' = st ∧ Small P st) ∧
    (done = false → ¬ Small P st ∧ PermOn P.n st'.idx ∧ Near P.n (1/4) st'.w st'.z st'.t ∧ ∃ a, 0 < a ∧ a < 1 ∧ st'.t = st.t * (1 - a) ∧
      ∀ i < P.n, resid P st'.w st'.z i = (1 - a) * resid P st.w st.z i) := by
  unfold turn at hr
  by_cases hs : Small P st
  · rw [if_pos ((small_iff P st).2 hs)] at hr
    cases hr
    exact ⟨fun _ => ⟨rfl, hs⟩, fun e => (by cases e)⟩
  rw [if_neg (fun g => hs ((small_iff P st).1 g))] at hr
  obtain ⟨dw, dz, idx, e1, p1, d1, r1⟩ := pred_spec P he hM st hp h.wpos h.zpos
  rw [e1] at hr
  simp only [Res.bind] at hr
  have hk : 0 < k2 P st dw dz := by
    cases e2 : stepLen P st dw dz with
    | ok a =>
      rw [e2] at hr
      simp only at hr
      cases e3 : corr P { w := fun i => st.w i + a * dw i, z := fun i => st.z i + a * dz i, t := st.t * (1 - a), idx := idx } with
      | ok e =>
        rw [e3] at hr
        simp only [Res.ok.injEq, Prod.mk.injEq, decide_eq_true_eq] at hr
        exact hr.2.2
      | fail => rw [e3] at hr; cases hr
      | ub => rw [e3] at hr; cases hr
    | fail => rw [e2] at hr; cases hr
    | ub => rw [e2] at hr; cases hr
  obtain ⟨a, s, e2, a0, a1, s0, has, hq⟩ := stepLen_pos P hsq st h dw dz hk
  rw [e2] at hr
  simp only at hr
  have hkk : k2 P st dw dz = ∑ i ∈ range P.n, (st.w i * st.z i - st.t) * (dw i * dz i) := by
    unfold k2 off
    rw [inner_spec]
  have n1 := pred_near P.n st.w st.z dw dz st.t a s h d1 a0 a1 s0 has (by rw [← hkk]; exact hk.le) (by rw [← hkk]; exact hq.le)
  obtain ⟨ew, ez, idx2, e3, p2, d2, r2⟩ := corr_spec P he hM { w := fun i => st.w i + a * dw i, z := fun i => st.z i + a * dz i, t := st.t * (1 - a), idx := idx }
    p1 n1.wpos n1.zpos
  rw [e3] at hr
  simp only [Res.ok.injEq, Prod.mk.injEq] at hr
  obtain ⟨rfl, rfl, -⟩ := hr
  refine ⟨fun g => (by cases g), fun _ => ⟨hs, p2, ?_, a, a0, a1, rfl, ?_⟩⟩
  · refine corr_near P.n _ _ ew ez (st.t * (1 - a)) n1 d2 ?_
    have := hM ez
    refine this.trans (le_of_eq (sum_congr rfl fun i hi => ?_))
    rw [r2 i (mem_range.1 hi)]; ring
  · intro i hi
    have h1 := r1 i hi
    have h2 := r2 i hi
    unfold resid at h1 ⊢
    dsimp only
    rw [show ∑ j ∈ range P.n, P.mat i j * (st.z j + a * dz j + ez j) = (∑ j ∈ range P.n, P.mat i j * st.z j) + a * (∑ j ∈ range P.n, P.mat i j * dz j) +
        ∑ j ∈ range P.n, P.mat i j * ez j by
      rw [mul_sum, ← sum_add_distrib, ← sum_add_distrib]
      exact sum_congr rfl fun j _ => by ring]
    rw [h2]
    linear_combination a * h1

/-- **C150** the directions exist, and a turn goes through if `k2` is positive. -/
theorem turn_ok (P : Prob K) (he : P.etol = 0) (hsq : SqrtOk P.sqrt) (hM : Psd P) (st : St K) (hp : PermOn P.n st.idx) (h : Near P.n (1/4) st.w st.z st.t) (hs : ¬ Small P st) :
    ∃ dw dz idx, pred P st = .ok (dw, dz, idx) ∧ (0 < k2 P st dw dz → ∃ st', turn P st = .ok (st', false, true)) := by
  obtain ⟨dw, dz, idx, e1, p1, d1, r1⟩ := pred_spec P he hM st hp h.wpos h.zpos
  refine ⟨dw, dz, idx, e1, fun hk => ?_⟩
  obtain ⟨a, s, e2, a0, a1, s0, has, hq⟩ := stepLen_pos P hsq st h dw dz hk
  have hkk : k2 P st dw dz = ∑ i ∈ range P.n, (st.w i * st.z i - st.t) * (dw i * dz i) := by
    unfold k2 off
    rw [inner_spec]
  have n1 := pred_near P.n st.w st.z dw dz st.t a s h d1 a0 a1 s0 has (by rw [← hkk]; exact hk.le) (by rw [← hkk]; exact hq.le)
  obtain ⟨ew, ez, idx2, e3, -⟩ := corr_spec P he hM { w := fun i => st.w i + a * dw i, z := fun i => st.z i + a * dz i, t := st.t * (1 - a), idx := idx }
    p1 n1.wpos n1.zpos
  unfold turn
  rw [if_neg (fun g => hs ((small_iff P st).1 g)), e1]
  simp only [Res.bind]
  rw [e2]
  simp only
  rw [e3]
  simp only [decide_eq_true hk]
  exact ⟨_, rfl⟩

/-- What the loop does while `k2` is positive. -/
theorem loop_spec (P : Prob K) (he : P.etol = 0) (hsq : SqrtOk P.sqrt) (hM : Psd P) : ∀ (k : Nat) (st st' : St K) (done : Bool), PermOn P.n st.idx →
    Near P.n (1/4) st.w st.z st.t → loop P k st = .ok (st', done, true) → Near P.n (1/4) st'.w st'.z st'.t ∧ (done = true → Small P st') ∧
      ∃ θ : K, 0 < θ ∧ θ ≤ 1 ∧ st'.t = θ * st.t ∧ ∀ i < P.n, resid P st'.w st'.z i = θ * resid P st.w st.z i := by
  intro k
  induction k with
  | zero =>
    intro st st' done _ hn h
    unfold loop at h
    cases h
    exact ⟨hn, fun g => (by cases g), 1, zero_lt_one, le_refl _, (one_mul _).symm, fun i _ => (one_mul _).symm⟩
  | succ k ih =>
    intro st st' done hp hn h
    unfold loop at h
    cases e1 : turn P st with
    | fail => rw [e1] at h; cases h
    | ub => rw [e1] at h; cases h
    | ok r =>
      obtain ⟨st1, d1, g1⟩ := r
      rw [e1] at h
      simp only [Res.bind] at h
      cases d1 with
      | true =>
        simp only [if_true] at h
        cases h
        have hg : g1 = true := by
          unfold turn at e1
          split at e1
          · cases e1; rfl
          · exfalso
            cases e2 : pred P st with
            | fail => rw [e2] at e1; cases e1
            | ub => rw [e2] at e1; cases e1
            | ok d =>
              rw [e2] at e1
              simp only [Res.bind] at e1
              cases e3 : stepLen P st d.1 d.2.1 with
              | fail => rw [e3] at e1; cases e1
              | ub => rw [e3] at e1; cases e1
              | ok a =>
                rw [e3] at e1
                simp only at e1
                split at e1 <;> simp at e1
        rw [hg] at e1
        obtain ⟨rfl, hs⟩ := (turn_spec P he hsq hM st _ hp hn true e1).1 rfl
        exact ⟨hn, fun _ => hs, 1, zero_lt_one, le_refl _, (one_mul _).symm, fun i _ => (one_mul _).symm⟩
      | false =>
        simp only [Bool.false_eq_true, if_false] at h
        cases e2 : loop P k st1 with
        | fail => rw [e2] at h; cases h
        | ub => rw [e2] at h; cases h
        | ok s =>
          obtain ⟨s1, s2, s3⟩ := s
          rw [e2] at h
          simp only [Res.ok.injEq, Prod.mk.injEq, Bool.and_eq_true] at h
          obtain ⟨rfl, rfl, rfl, rfl⟩ := h
          obtain ⟨-, hp1, hn1, a, a0, a1, ht, hres⟩ := (turn_spec P he hsq hM st st1 hp hn false e1).2 rfl
          obtain ⟨hn2, hs2, θ, t0, t1, h1, h2⟩ := ih st1 _ _ hp1 hn1 e2
          refine ⟨hn2, hs2, θ * (1 - a), mul_pos t0 (by linarith), mul_le_one₀ t1 (by linarith) (by linarith), ?_, fun i hi => ?_⟩
          · rw [h1, ht]; ring
          · rw [h2 i hi, hres i hi]; ring

/-- The first point is in the neighbourhood. -/
theorem ini_near (P : Prob K) (hsq : SqrtOk P.sqrt) (hn : 0 < P.n) : ∃ st, ini P = .ok st ∧ PermOn P.n st.idx ∧ Near P.n (1/4) st.w st.z st.t := by
  unfold ini
  rw [if_neg hn.ne']
  have hn' : (0:K) < P.n := Nat.cast_pos.2 hn
  obtain ⟨s0, s1⟩ := hsq (P.n : K) hn'.le
  set σ := P.sqrt (P.n : K)
  have hd : 0 < (P.n : K) + 1 / 4 * σ := by linarith
  have hu : (0:K) < 100 / P.n := by positivity
  refine ⟨_, rfl, PermOn.id P.n, fun i _ => hu, fun i _ => hu, ?_, ?_⟩
  · dsimp only
    rw [inner_spec]
    exact div_pos (sum_pos (fun i _ => mul_pos hu hu) ⟨0, mem_range.2 hn⟩) hd
  · dsimp only
    unfold dist
    rw [inner_spec, sum_const, sum_const, card_range, nsmul_eq_mul, nsmul_eq_mul]
    generalize (100:K) / P.n = u at hu ⊢
    have e : u * u - (P.n : K) * (u * u) / ((P.n : K) + 1 / 4 * σ) = 1 / 4 * σ * (u * u) / ((P.n : K) + 1 / 4 * σ) := by
      field_simp; ring
    rw [e, div_pow, mul_div_assoc', mul_div_assoc', div_pow]
    refine div_le_div_of_nonneg_right (le_of_eq ?_) (sq_nonneg _)
    linear_combination 1 / 16 * (P.n : K) * (u * u) ^ 2 * s1

/-! ## The answer -/

/-- A solution of the complementarity problem up to `tol`. -/
structure NearSolution (P : Prob K) (w z : Nat → K) (tol : K) : Prop where
  wpos : ∀ i < P.n, 0 ≤ w i
  zpos : ∀ i < P.n, 0 ≤ z i
  eq : ∀ i < P.n, |(∑ j ∈ range P.n, P.mat i j * z j) + P.q i - w i| ≤ tol * (1 + ∑ j ∈ range P.n, |P.mat i j|)
  compl : ∑ i ∈ range P.n, w i * z i ≤ tol

/-- **C152** for a positive semidefinite matrix, if `k2` was positive in all turns: the answer is not negative, and if the loop was left by the test, it is a
solution up to the tolerance.  Partial: exact elimination; nothing is said of the runs in which `k2` is not positive, and the iteration limit is reported as
success. -/
theorem zLCPSolveIP_solution_partial (P : Prob K) (he : P.etol = 0) (ht : 0 ≤ P.tol) (hsq : SqrtOk P.sqrt) (hM : Psd P) (hn : 0 < P.n) (limit : Nat) (R : Ans K)
    (h : zLCPSolveIP P limit = .ok R) (hg : R.good = true) :
    (∀ i < P.n, 0 ≤ R.w i) ∧ (∀ i < P.n, 0 ≤ R.z i) ∧ (R.done = true → NearSolution P R.w R.z P.tol) := by
  obtain ⟨st, e0, hp, hn0⟩ := ini_near P hsq hn
  unfold zLCPSolveIP at h
  rw [e0] at h
  simp only [Res.bind] at h
  cases e1 : loop P limit st with
  | fail => rw [e1] at h; cases h
  | ub => rw [e1] at h; cases h
  | ok r =>
    obtain ⟨st', done, good⟩ := r
    rw [e1] at h
    simp only at h
    cases h
    simp only at hg
    rw [hg] at e1
    obtain ⟨hn1, hs, -⟩ := loop_spec P he hsq hM limit st st' done hp hn0 e1
    dsimp only
    set z : Nat → K := fun i => if zIsTol (st'.z i) P.tol = true then 0 else st'.z i with hz
    have hz0 : ∀ i < P.n, 0 ≤ z i := by
      intro j hj
      rw [hz]; dsimp only
      split
      · exact le_refl _
      · exact (hn1.zpos j hj).le
    have hzl : ∀ i < P.n, z i ≤ st'.z i := by
      intro j hj
      rw [hz]; dsimp only
      split
      · exact (hn1.zpos j hj).le
      · exact le_refl _
    have hzd : ∀ j, |z j - st'.z j| ≤ P.tol := by
      intro j
      rw [hz]; dsimp only
      split
      · rename_i h
        simp only [zIsTol, decide_eq_true_eq] at h
        rwa [zero_sub, abs_neg]
      · rw [sub_self, abs_zero]; exact ht
    have hw0 : ∀ i < P.n, 0 ≤ st'.w i := fun i hi => (hn1.wpos i hi).le
    refine ⟨hw0, hz0, fun hd => ?_⟩
    obtain ⟨h1, h2⟩ := hs hd
    refine ⟨hw0, hz0, ?_, ?_⟩
    · intro i hi
      have e1 : (∑ j ∈ range P.n, P.mat i j * z j) + P.q i - st'.w i = resid P st'.w st'.z i + ∑ j ∈ range P.n, P.mat i j * (z j - st'.z j) := by
        unfold resid
        rw [show ∑ j ∈ range P.n, P.mat i j * (z j - st'.z j) = (∑ j ∈ range P.n, P.mat i j * z j) - ∑ j ∈ range P.n, P.mat i j * st'.z j by
          rw [← sum_sub_distrib]; exact sum_congr rfl fun j _ => by ring]
        ring
      rw [e1]
      refine (abs_add_le _ _).trans ?_
      have h3 : |∑ j ∈ range P.n, P.mat i j * (z j - st'.z j)| ≤ ∑ j ∈ range P.n, |P.mat i j| * P.tol :=
        (abs_sum_le_sum_abs _ _).trans (sum_le_sum fun j _ => by rw [abs_mul]; exact mul_le_mul_of_nonneg_left (hzd j) (abs_nonneg _))
      rw [← sum_mul] at h3
      have := h1 i hi
      linarith
    · refine le_trans ?_ ((le_abs_self _).trans h2)
      exact sum_le_sum fun j hj => mul_le_mul_of_nonneg_left (hzl j (mem_range.1 hj)) (hw0 j (mem_range.1 hj))

/-! ## Where the claims fail -/

/-- Problems with one unknown over the rational numbers; `sqrt` is right on the arguments that occur. -/
def prob1 (m q : ℚ) : Prob ℚ :=
  { n := 1, mat := fun _ _ => m, q := fun _ => q, tol := 1/10^12, etol := 0, sqrt := fun x => if x = 4 then 2 else if x = 1/441 then 1/21 else x }

/-- **C152 is violated**: `w = z + 200` has the solution `z = 0`, `w = 200`; the function returns false in the first turn. -/
theorem zLCPSolveIP_refuses_violated : (match zLCPSolveIP (prob1 1 200) 10000 with | .fail => true | _ => false) = true ∧
    (200:ℚ) = 1 * 0 + 200 ∧ (200:ℚ) * 0 = 0 := by
  refine ⟨by decide +kernel, by norm_num, by norm_num⟩

/-- **C151 is violated**: for `w = 20 z + 200` the predictor of the first turn takes the step 21/11, and the `z` that is passed on to the corrector is -100. -/
theorem zLCPSolveIP_leaves_violated :
    (match ini (prob1 20 200) with
      | .ok st => (match pred (prob1 20 200) st with
        | .ok d => (match stepLen (prob1 20 200) st d.1 d.2.1 with
          | .ok a => decide (a = 21/11) && decide (st.z 0 + a * d.2.1 0 = -100) && decide (st.t * (1 - a) < 0)
          | _ => false)
        | _ => false)
      | _ => false) = true := by decide +kernel

/-- The hypotheses of the theorems are met: for `w = 4 z + 15` a turn goes through with a positive `k2`. -/
example : (match ini (prob1 4 15) with
      | .ok st => (match pred (prob1 4 15) st with
        | .ok d => decide (0 < k2 (prob1 4 15) st d.1 d.2.1)
        | _ => false)
      | _ => false) = true ∧ Psd (prob1 4 15) := by
  refine ⟨by decide +kernel, fun v => ?_⟩
  simp only [prob1, sum_range_one]
  nlinarith [sq_nonneg (v 0)]

end Zm.LCPIP
