import Verif.Model.IP
import Mathlib.Analysis.Calculus.Deriv.Basic
import Mathlib.Analysis.Calculus.Deriv.Mul
import Mathlib.Analysis.Calculus.Deriv.Add
import Mathlib.Topology.Order.OrderClosed
import Mathlib.Tactic.Linarith
import Mathlib.Tactic.Ring
import Mathlib.Tactic.NormNum
import Mathlib.Tactic.IntervalCases

/-! # Segment search (C29) and linear interpolation (C30) -/

set_option linter.unusedSectionVars false

namespace Zm.IP
open Zm

section field
variable {K : Type*} [Field K] [LinearOrder K] [IsStrictOrderedRing K]

/-! ## Knot times -/

/-- Knot times increase when all the time increments after the first are positive. -/
theorem knotTime_lt {n : Nat} {dt : Nat → K} (hdt : ∀ i, 0 < i → i < n → 0 < dt i) {i j : Nat} (hij : i < j) (hj : j < n) :
    knotTime dt i < knotTime dt j := by
  induction j with
  | zero => omega
  | succ j ih =>
    have h := hdt (j+1) (by omega) hj
    have h2 : knotTime dt j < knotTime dt (j+1) := by simp only [knotTime]; linarith
    rcases Nat.lt_or_ge i j with h1 | h1
    · exact lt_trans (ih h1 (by omega)) h2
    · have : i = j := by omega
      subst this; exact h2

/-! ## Segment search -/

theorem segGo_spec (T : Nat → K) (t : K) (lo hi : Nat) (fuel i j : Nat) (hi1 : lo ≤ i) (hij : i < j) (hj : j ≤ hi)
    (hf : j - i ≤ fuel) (h1 : i = lo ∨ T i ≤ t) (h2 : j = hi ∨ t < T j) :
    let r := segGo T t fuel i j
    lo ≤ r ∧ r + 1 ≤ hi ∧ (r = lo ∨ T r ≤ t) ∧ (r + 1 = hi ∨ t < T (r+1)) := by
  induction fuel generalizing i j with
  | zero => omega
  | succ f ih =>
    simp only [segGo]
    by_cases hk : (i + j) / 2 = i
    · rw [if_pos hk]
      have hj' : j = i + 1 := by omega
      subst hj'
      exact ⟨hi1, hj, h1, h2⟩
    · rw [if_neg hk]
      have k1 : i < (i+j)/2 := by omega
      have k2 : (i+j)/2 < j := by omega
      by_cases ht : T ((i+j)/2) > t
      · rw [if_pos ht]
        exact ih i _ hi1 k1 (by omega) (by omega) h1 (Or.inr ht)
      · rw [if_neg ht]
        exact ih _ j (by omega) k2 hj (by omega) (Or.inr (not_lt.mp ht)) h2

/-- **C29.** For at least two knots, any knot times and any query `t`, the segment search returns an index `i` with a
successor knot `i + 1 < n`, such that `t` is not before knot `i` (unless `i` is the first) and is before knot `i + 1`
(unless that is the last). -/
theorem zIPDataSeg_spec (n : Nat) (hn : 2 ≤ n) (T : Nat → K) (t : K) :
    zIPDataSeg n T t + 1 < n ∧ (zIPDataSeg n T t = 0 ∨ T (zIPDataSeg n T t) ≤ t) ∧
      (zIPDataSeg n T t + 2 = n ∨ t < T (zIPDataSeg n T t + 1)) := by
  have := segGo_spec T t 0 (n-1) n 0 (n-1) (le_refl _) (by omega) (le_refl _) (by omega) (Or.inl rfl) (Or.inl rfl)
  unfold zIPDataSeg
  refine ⟨by omega, this.2.2.1, ?_⟩
  rcases this.2.2.2 with h | h
  · left; omega
  · right; exact h

/-- **C29.** Inside the range of increasing knot times, `i` is the segment that contains `t`: `T i ≤ t < T (i+1)`. -/
theorem zIPDataSeg_bracket (n : Nat) (hn : 2 ≤ n) (T : Nat → K) (t : K) (h0 : T 0 ≤ t) (h1 : t < T (n-1)) :
    zIPDataSeg n T t + 1 < n ∧ T (zIPDataSeg n T t) ≤ t ∧ t < T (zIPDataSeg n T t + 1) := by
  obtain ⟨a, b, c⟩ := zIPDataSeg_spec n hn T t
  refine ⟨a, ?_, ?_⟩
  · rcases b with b | b
    · rw [b]; exact h0
    · exact b
  · rcases c with c | c
    · rw [show zIPDataSeg n T t + 1 = n - 1 by omega]; exact h1
    · exact c

/-- For increasing knot times the segment is determined by the two bounds. -/
theorem zIPDataSeg_eq (n : Nat) (T : Nat → K) (hT : ∀ i j, i < j → j < n → T i < T j) (t : K) (i : Nat) (hi : i + 1 < n)
    (h1 : i = 0 ∨ T i ≤ t) (h2 : i + 2 = n ∨ t < T (i+1)) : zIPDataSeg n T t = i := by
  obtain ⟨a, b, c⟩ := zIPDataSeg_spec n (by omega) T t
  rcases Nat.lt_trichotomy (zIPDataSeg n T t) i with h | h | h
  · exfalso
    have q1 : T i ≤ t := by rcases h1 with h1 | h1; omega; exact h1
    have q2 : t < T (zIPDataSeg n T t + 1) := by rcases c with c | c; omega; exact c
    rcases Nat.lt_or_ge (zIPDataSeg n T t + 1) i with g | g
    · have := hT _ _ g (by omega); exact absurd (lt_of_le_of_lt q1 q2) (not_lt.mpr this.le)
    · have : zIPDataSeg n T t + 1 = i := by omega
      rw [this] at q2; exact absurd q2 (not_lt.mpr q1)
  · exact h
  · exfalso
    have q1 : T (zIPDataSeg n T t) ≤ t := by rcases b with b | b; omega; exact b
    have q2 : t < T (i+1) := by rcases h2 with h2 | h2; omega; exact h2
    rcases Nat.lt_or_ge (i+1) (zIPDataSeg n T t) with g | g
    · have := hT _ _ g (by omega); exact absurd (lt_of_le_of_lt q1 q2) (not_lt.mpr this.le)
    · have : zIPDataSeg n T t = i + 1 := by omega
      rw [this] at q1; exact absurd q2 (not_lt.mpr q1)

/-- **C29.** At a knot the segment starting there is selected; at the last knot, the last segment. -/
theorem zIPDataSeg_knot (n : Nat) (hn : 2 ≤ n) (T : Nat → K) (hT : ∀ i j, i < j → j < n → T i < T j) (i : Nat) (hi : i < n) :
    zIPDataSeg n T (T i) = min i (n - 2) := by
  rcases Nat.lt_or_ge (i+1) n with h | h
  · rw [Nat.min_eq_left (by omega)]
    exact zIPDataSeg_eq n T hT _ i h (Or.inr (le_refl _)) (Or.inr (hT _ _ (by omega) h))
  · rw [Nat.min_eq_right (by omega)]
    refine zIPDataSeg_eq n T hT _ (n-2) (by omega) (Or.inr (hT _ _ (by omega) hi).le) (Or.inl (by omega))

example : zIPDataSeg 5 (fun i => (i * i : ℤ) : Nat → ℚ) 7 = 2 := by
  simp [zIPDataSeg, segGo]; norm_num
example : ∀ i j : Nat, i < j → j < 5 → knotTime (fun _ => (1:ℚ)) i < knotTime (fun _ => (1:ℚ)) j :=
  fun i j hij hj => knotTime_lt (n := 5) (fun _ _ _ => by norm_num) hij hj

/-! ## Linear interpolation -/

theorem linCreate_spec (n : Nat) (dt x va : Nat → K) (hdt : ∀ i, 0 < i → i < n → dt i ≠ 0) (i : Nat) (hi : i + 1 < n) :
    linCreate n dt x va i = (x (i+1) - x i) / dt (i+1) := by
  unfold linCreate
  have h := forUp_inv (lo := 1) (hi := n) (f := fun i va =>
    let va := set1 va (i-1) (x i - x (i-1))
    if dt i = 0 then va else set1 va (i-1) (va (i-1) / dt i))
    (P := fun k (va : Nat → K) => ∀ i, i + 1 < k → va i = (x (i+1) - x i) / dt (i+1)) (s := va) (by omega)
    (by intro i hi; omega)
    (by
      intro k va hk1 hk2 ih j hj
      simp only
      rw [if_neg (hdt k (by omega) hk2)]
      rcases Nat.lt_or_ge (j+1) k with h | h
      · have hne : j ≠ k - 1 := by omega
        rw [set1_ne _ _ hne, set1_ne _ _ hne]; exact ih j h
      · have : k = j + 1 := by omega
        subst this
        simp only [Nat.add_sub_cancel]
        rw [set1_same, set1_same])
  exact h i hi

/-- **C30.** With positive time increments, the linear interpolator passes through every knot. -/
theorem linVec_knot (n : Nat) (hn : 2 ≤ n) (dt x va : Nat → K) (hdt : ∀ i, 0 < i → i < n → 0 < dt i) (i : Nat) (hi : i < n) :
    linVec n (knotTime dt) x (linCreate n dt x va) (knotTime dt i) = x i := by
  unfold linVec
  simp only
  rw [zIPDataSeg_knot n hn _ (fun i j h1 h2 => knotTime_lt hdt h1 h2) i hi]
  rcases Nat.lt_or_ge (i+1) n with h | h
  · rw [Nat.min_eq_left (by omega)]; ring
  · rw [Nat.min_eq_right (by omega), linCreate_spec n dt x va (fun i a b => (hdt i a b).ne') _ (by omega)]
    have e : i = n - 2 + 1 := by omega
    subst e
    have := (hdt (n-2+1) (by omega) hi).ne'
    simp only [knotTime]
    field_simp
    ring

/-- **C30.** Between two knots the linear interpolator gives the point that divides the section values in the ratio of the
times: with `t = (1 - s) T i + s T (i+1)` and `0 ≤ s < 1` its value is `(1 - s) x i + s x (i+1)`. -/
theorem linVec_between (n : Nat) (dt x va : Nat → K) (hdt : ∀ i, 0 < i → i < n → 0 < dt i) (i : Nat) (hi : i + 1 < n) (s : K)
    (h0 : 0 ≤ s) (h1 : s < 1) :
    linVec n (knotTime dt) x (linCreate n dt x va) ((1 - s) * knotTime dt i + s * knotTime dt (i+1)) = (1 - s) * x i + s * x (i+1) := by
  have hd := hdt (i+1) (by omega) hi
  unfold linVec
  simp only
  rw [zIPDataSeg_eq n _ (fun i j h1 h2 => knotTime_lt hdt h1 h2) _ i hi, linCreate_spec n dt x va (fun i a b => (hdt i a b).ne') _ hi]
  · simp only [knotTime]; field_simp; ring
  · right; simp only [knotTime]; nlinarith
  · right; simp only [knotTime]; nlinarith

/-- **C30.** Consequently, within the range of the knots the value lies between the section values of the segment. -/
theorem linVec_mem (n : Nat) (hn : 2 ≤ n) (dt x va : Nat → K) (hdt : ∀ i, 0 < i → i < n → 0 < dt i) (t : K) (h0 : knotTime dt 0 ≤ t)
    (h1 : t < knotTime dt (n-1)) :
    ∃ i, i + 1 < n ∧ knotTime dt i ≤ t ∧ t < knotTime dt (i+1) ∧
      min (x i) (x (i+1)) ≤ linVec n (knotTime dt) x (linCreate n dt x va) t ∧
      linVec n (knotTime dt) x (linCreate n dt x va) t ≤ max (x i) (x (i+1)) := by
  obtain ⟨a, b, c⟩ := zIPDataSeg_bracket n hn (knotTime dt) t h0 h1
  refine ⟨_, a, b, c, ?_⟩
  generalize hI : zIPDataSeg n (knotTime dt) t = i at *
  have hd := hdt (i+1) (by omega) a
  have hc : t < knotTime dt i + dt (i+1) := c
  have hs0 : 0 ≤ (t - knotTime dt i) / dt (i+1) := div_nonneg (by linarith) hd.le
  have hs1 : (t - knotTime dt i) / dt (i+1) < 1 := by rw [div_lt_one hd]; linarith
  have e := linVec_between n dt x va hdt i a _ hs0 hs1
  have et : (1 - (t - knotTime dt i) / dt (i+1)) * knotTime dt i + (t - knotTime dt i) / dt (i+1) * knotTime dt (i+1) = t := by
    simp only [knotTime]; field_simp; ring
  rw [et] at e
  rw [e]
  generalize (t - knotTime dt i) / dt (i+1) = s at *
  have m1 := min_le_left (x i) (x (i+1))
  have m2 := min_le_right (x i) (x (i+1))
  have m3 := le_max_left (x i) (x (i+1))
  have m4 := le_max_right (x i) (x (i+1))
  constructor <;> nlinarith

example : linVec 3 (knotTime (fun _ => 1)) (fun i => (i*i : ℚ)) (linCreate 3 (fun _ => 1) (fun i => (i*i : ℚ)) (fun _ => 0)) (5/2) = 5/2 := by
  have := linVec_between 3 (fun _ => (1:ℚ)) (fun i => (i*i:ℚ)) (fun _ => 0) (fun _ _ _ => by norm_num) 1 (by norm_num) (1/2) (by norm_num) (by norm_num)
  norm_num [knotTime] at this
  norm_num [knotTime, this]

end field

/-! ## Gluing segments -/

/-- A piecewise function whose pieces agree in value and slope at the interior knots is differentiable everywhere, and its
derivative is the piecewise slope. -/
theorem glue_hasDerivAt (n : Nat) (hn : 2 ≤ n) (T : Nat → ℝ) (hT : ∀ i j, i < j → j < n → T i < T j) (p p' : Nat → ℝ → ℝ)
    (hp : ∀ i t, i + 1 < n → HasDerivAt (p i) (p' i t) t)
    (h0 : ∀ i, i + 2 < n → p i (T (i+1)) = p (i+1) (T (i+1)))
    (h1 : ∀ i, i + 2 < n → p' i (T (i+1)) = p' (i+1) (T (i+1))) (t : ℝ) :
    HasDerivAt (fun t => p (zIPDataSeg n T t) t) (p' (zIPDataSeg n T t) t) t := by
  obtain ⟨a, b, c⟩ := zIPDataSeg_spec n hn T t
  generalize hI : zIPDataSeg n T t = i at *
  -- right side
  have hr : HasDerivWithinAt (fun t => p (zIPDataSeg n T t) t) (p' i t) (Set.Ici t) t := by
    refine ((hp i t a).hasDerivWithinAt).congr_of_eventuallyEq ?_ (by simp only [hI])
    have : ∀ᶠ s in nhdsWithin t (Set.Ici t), i + 2 = n ∨ s < T (i+1) := by
      rcases c with c | c
      · exact Filter.Eventually.of_forall fun _ => Or.inl c
      · exact Filter.Eventually.mono (mem_nhdsWithin_of_mem_nhds (Iio_mem_nhds c)) fun s hs => Or.inr hs
    filter_upwards [this, self_mem_nhdsWithin] with s hs hs2
    rw [zIPDataSeg_eq n T hT s i a (b.imp id fun b => le_trans b hs2) hs]
  have hl : HasDerivWithinAt (fun t => p (zIPDataSeg n T t) t) (p' i t) (Set.Iic t) t := by
    by_cases hlt : i = 0 ∨ T i < t
    · refine ((hp i t a).hasDerivWithinAt).congr_of_eventuallyEq ?_ (by simp only [hI])
      have : ∀ᶠ s in nhdsWithin t (Set.Iic t), i = 0 ∨ T i ≤ s := by
        rcases hlt with h | h
        · exact Filter.Eventually.of_forall fun _ => Or.inl h
        · exact Filter.Eventually.mono (mem_nhdsWithin_of_mem_nhds (Ioi_mem_nhds h)) fun s hs => Or.inr (le_of_lt hs)
      filter_upwards [this, self_mem_nhdsWithin] with s hs hs2
      rw [zIPDataSeg_eq n T hT s i a hs (c.imp id fun c => lt_of_le_of_lt hs2 c)]
    · push Not at hlt
      obtain ⟨hi0, hle⟩ := hlt
      have hti : T i = t := le_antisymm (by rcases b with b | b; exact absurd b hi0; exact b) hle
      obtain ⟨j, rfl⟩ : ∃ j, i = j + 1 := ⟨i - 1, by omega⟩
      have e0 := h0 j (by omega)
      have e1 := h1 j (by omega)
      rw [hti] at e0 e1
      rw [← e1]
      refine ((hp j t (by omega)).hasDerivWithinAt).congr_of_eventuallyEq ?_ (by simp only [hI]; exact e0.symm)
      have : ∀ᶠ s in nhdsWithin t (Set.Iic t), T j < s :=
        mem_nhdsWithin_of_mem_nhds (Ioi_mem_nhds (by rw [← hti]; exact hT _ _ (by omega) (by omega)))
      filter_upwards [this, self_mem_nhdsWithin] with s hs hs2
      rcases lt_or_eq_of_le (show s ≤ t from hs2) with h | h
      · rw [zIPDataSeg_eq n T hT s j (by omega) (Or.inr hs.le) (Or.inr (by rw [hti]; exact h))]
      · rw [h, hI]; exact e0.symm
  have := hl.union hr
  rwa [Set.Iic_union_Ici, hasDerivWithinAt_univ] at this

/-- **C30.** Away from the knots the velocity returned by the linear interpolator is the derivative of its value. -/
theorem linVel_hasDerivAt (n : Nat) (hn : 2 ≤ n) (dt x va : Nat → ℝ) (hdt : ∀ i, 0 < i → i < n → 0 < dt i) (t : ℝ)
    (ht : ∀ i, i < n → t ≠ knotTime dt i) :
    HasDerivAt (fun t => linVec n (knotTime dt) x va t) (linVel n (knotTime dt) va t) t := by
  obtain ⟨a, b, c⟩ := zIPDataSeg_spec n hn (knotTime dt) t
  have hv : linVel n (knotTime dt) va t = va (zIPDataSeg n (knotTime dt) t) := by
    unfold linVel linSecVel
    rw [if_neg (by omega)]; simp
  rw [hv]
  generalize hI : zIPDataSeg n (knotTime dt) t = i at *
  have h : HasDerivAt (fun t => x i + (t - knotTime dt i) * va i) (va i) t := by
    have := (((hasDerivAt_id t).sub_const (knotTime dt i)).mul_const (va i)).const_add (x i)
    simpa using this
  refine h.congr_of_eventuallyEq ?_
  have e1 : ∀ᶠ s in nhds t, i = 0 ∨ knotTime dt i ≤ s := by
    rcases b with b | b
    · exact Filter.Eventually.of_forall fun _ => Or.inl b
    · have : knotTime dt i < t := lt_of_le_of_ne b (Ne.symm (ht i (by omega)))
      exact Filter.Eventually.mono (Ioi_mem_nhds this) fun s hs => Or.inr (le_of_lt hs)
  have e2 : ∀ᶠ s in nhds t, i + 2 = n ∨ s < knotTime dt (i+1) := by
    rcases c with c | c
    · exact Filter.Eventually.of_forall fun _ => Or.inl c
    · exact Filter.Eventually.mono (Iio_mem_nhds c) fun s hs => Or.inr hs
  filter_upwards [e1, e2] with s h1 h2
  unfold linVec
  simp only
  rw [zIPDataSeg_eq n _ (fun i j h1 h2 => knotTime_lt hdt h1 h2) s i a h1 h2]

end Zm.IP
