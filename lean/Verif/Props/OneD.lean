import Verif.Model.OneD
import Verif.Props.Misc
import Mathlib.Order.Interval.Set.UnorderedInterval
import Mathlib.Topology.Order.IntermediateValue
import Mathlib.Topology.Instances.Real.Lemmas
import Mathlib.Analysis.Real.Sqrt
import Mathlib.Tactic.Linarith
import Mathlib.Tactic.FieldSimp
import Mathlib.Tactic.Ring
import Mathlib.Tactic.NormNum

set_option linter.unusedSectionVars false
set_option linter.unusedVariables false

/-! # Equations and optimisation in one variable: C50, C51, C88 -/

namespace Zm.OneD
open Zm Zm.Misc Set

section
variable {K : Type*} [Field K] [LinearOrder K] [IsStrictOrderedRing K]

theorem iterInit_pos (iter : Int) : 0 < iterInit iter := by
  unfold iterInit; split_ifs <;> omega

/-! ## Bisection -/

theorem mid_mem (x1 x2 : K) : (1/2) * (x1 + x2) ∈ uIcc x1 x2 := by
  rw [mem_uIcc]
  rcases le_total x1 x2 with h | h
  · left; constructor <;> linarith
  · right; constructor <;> linarith

/-- What bisection promises about its result `r` for the bracket `x1`, `x2`: it lies in the bracket; without a warning it is a root up to
`tol`; with a warning it is an end of an interval inside the bracket, of width `w`, at the ends of which the function has opposite signs. -/
structure BisecSpec (f : K → K) (x1 x2 tol w : K) (r : K × Bool) : Prop where
  mem : r.1 ∈ uIcc x1 x2
  root : r.2 = true → |f r.1| ≤ tol
  bracket : r.2 = false → ∃ lo ∈ uIcc x1 x2, ∃ hi ∈ uIcc x1 x2, (r.1 = lo ∨ r.1 = hi) ∧ f lo * f hi < 0 ∧ |hi - lo| = w

theorem BisecSpec.mono {f : K → K} {x1 x2 y1 y2 tol w w' : K} {r : K × Bool} (h : BisecSpec f y1 y2 tol w r)
    (h1 : y1 ∈ uIcc x1 x2) (h2 : y2 ∈ uIcc x1 x2) (hw : w = w') : BisecSpec f x1 x2 tol w' r := by
  have hs := uIcc_subset_uIcc h1 h2
  refine ⟨hs h.mem, h.root, fun hr => ?_⟩
  obtain ⟨lo, hlo, hi, hhi, ha, hb, hc⟩ := h.bracket hr
  exact ⟨lo, hs hlo, hi, hs hhi, ha, hb, hc.trans hw⟩

theorem neg_mul_of_same {a b c : K} (h : a * b < 0) (hc : c ≠ 0) (hn : ¬ a * c < 0) : c * b < 0 := by
  rcases mul_neg_iff.1 h with ⟨ha, hb⟩ | ⟨ha, hb⟩
  · have : 0 < c := by
      rcases lt_or_gt_of_ne hc with h' | h'
      · exact absurd (mul_neg_of_pos_of_neg ha h') hn
      · exact h'
    exact mul_neg_of_pos_of_neg this hb
  · have : c < 0 := by
      rcases lt_or_gt_of_ne hc with h' | h'
      · exact h'
      · exact absurd (mul_neg_of_neg_of_pos ha h') hn
    exact mul_neg_of_neg_of_pos this hb

theorem ne_zero_of_not_tiny {x tol : K} (htol : 0 ≤ tol) (h : ¬ |x| ≤ tol) : x ≠ 0 := by
  rintro rfl; exact h (by simpa using htol)

theorem bisecLoop_spec (f : K → K) (tol : K) (htol : 0 ≤ tol) (n : Nat) (x1 x2 xm : K) (h : f x1 * f x2 < 0) (hm : n = 0 → xm = x1 ∨ xm = x2) :
    BisecSpec f x1 x2 tol (|x2 - x1| / 2^n) (bisecLoop f tol n x1 x2 (f x1) xm) := by
  induction n generalizing x1 x2 xm with
  | zero =>
    unfold bisecLoop
    refine ⟨?_, by simp, fun _ => ⟨x1, left_mem_uIcc, x2, right_mem_uIcc, hm rfl, h, by simp⟩⟩
    rcases hm rfl with h | h <;> simp [h]
  | succ n ih =>
    unfold bisecLoop
    dsimp only
    have hmid := mid_mem x1 x2
    split_ifs with h1 h2
    · exact ⟨hmid, fun _ => h1, by simp⟩
    · refine (ih x1 _ _ h2 (fun _ => Or.inr rfl)).mono left_mem_uIcc hmid ?_
      have : (1/2) * (x1 + x2) - x1 = (x2 - x1) / 2 := by ring
      rw [this, abs_div, abs_two, pow_succ]
      rw [div_div, mul_comm]
    · refine (ih _ x2 _ (neg_mul_of_same h (ne_zero_of_not_tiny htol h1) h2) (fun _ => Or.inl rfl)).mono hmid right_mem_uIcc ?_
      have : x2 - (1/2) * (x1 + x2) = (x2 - x1) / 2 := by ring
      rw [this, abs_div, abs_two, pow_succ]
      rw [div_div, mul_comm]

theorem bracketLoop_bracketed (f : K → K) (tol : K) (rnd : Nat → K × K) (n : Nat) (hn : 0 < n) (x1 x2 : K) (h : f x1 * f x2 < 0) :
    (bracketLoop f tol rnd n 0 x1 x2 = .root1 ∧ |f x1| ≤ tol) ∨ (bracketLoop f tol rnd n 0 x1 x2 = .root2 ∧ |f x2| ≤ tol) ∨
    bracketLoop f tol rnd n 0 x1 x2 = .found x1 x2 (f x1) (f x2) := by
  obtain ⟨k, rfl⟩ := Nat.exists_eq_succ_of_ne_zero hn.ne'
  unfold bracketLoop
  by_cases h1 : |f x1| ≤ tol
  · simp [h1]
  · by_cases h2 : |f x2| ≤ tol
    · simp [h1, h2]
    · simp [h1, h2, h]

/-- What a search without a bracket may end in. -/
theorem bracketLoop_found (f : K → K) (tol : K) (rnd : Nat → K × K) (n c : Nat) (x1 x2 y1 y2 g1 g2 : K)
    (h : bracketLoop f tol rnd n c x1 x2 = .found y1 y2 g1 g2) :
    g1 = f y1 ∧ g2 = f y2 ∧ f y1 * f y2 < 0 ∧ ((y1 = x1 ∧ y2 = x2) ∨ ∃ k, c ≤ k ∧ y1 = (rnd k).1 ∧ y2 = (rnd k).2) := by
  induction n generalizing c x1 x2 with
  | zero => simp [bracketLoop] at h
  | succ n ih =>
    unfold bracketLoop at h
    split_ifs at h with h1 h2 h3
    · injection h with a b c d
      subst a b
      exact ⟨c.symm, d.symm, h3, Or.inl ⟨rfl, rfl⟩⟩
    · obtain ⟨a, b, d, e⟩ := ih _ _ _ h
      refine ⟨a, b, d, Or.inr ?_⟩
      rcases e with ⟨e1, e2⟩ | ⟨k, hk, e⟩
      · exact ⟨c, le_rfl, e1, e2⟩
      · exact ⟨k, by omega, e⟩

/-- C50, bisection from a bracket: the result has `|f| ≤ tol` and no warning was given, or else the bracket has been halved `iter+1` times
around a change of sign, and the result is an end of it. -/
theorem zNLE_Bisec_bracketed (f : K → K) (x1 x2 tol : K) (iter : Int) (rnd : Nat → K × K) (htol : 0 ≤ tol) (h : f x1 * f x2 < 0) :
    BisecSpec f x1 x2 tol (|x2 - x1| / 2^(iterInit iter + 1)) (zNLE_Bisec f x1 x2 tol iter rnd) := by
  unfold zNLE_Bisec
  dsimp only
  rcases bracketLoop_bracketed f tol rnd _ (iterInit_pos iter) x1 x2 h with ⟨e, h1⟩ | ⟨e, h1⟩ | e
  · rw [e]; exact ⟨left_mem_uIcc, fun _ => h1, by simp⟩
  · rw [e]; exact ⟨right_mem_uIcc, fun _ => h1, by simp⟩
  · rw [e]; exact bisecLoop_spec f tol htol _ x1 x2 0 h (by omega)

example : (fun x : ℚ => x^2 - 2) 0 * (fun x : ℚ => x^2 - 2) 2 < 0 := by norm_num
example : zNLE_Bisec (fun x : ℚ => x^2 - 2) 0 2 (1/10) 2 (fun _ => (0, 0)) = (5/4, false) := by
  have e : iterInit 2 = 2 := rfl
  norm_num [zNLE_Bisec, e, bracketLoop, bisecLoop, abs_of_pos, abs_of_neg]

/-- C50, bisection of a continuous function: there is a root in the bracket, and unless the result has `|f| ≤ tol` it is no farther from a
root than the bracket halved `iter+1` times. -/
theorem zNLE_Bisec_continuous (f : ℝ → ℝ) (x1 x2 tol : ℝ) (iter : Int) (rnd : Nat → ℝ × ℝ) (htol : 0 ≤ tol) (h : f x1 * f x2 < 0)
    (hc : ContinuousOn f (uIcc x1 x2)) :
    let r := zNLE_Bisec f x1 x2 tol iter rnd
    |f r.1| ≤ tol ∨ ∃ z ∈ uIcc x1 x2, f z = 0 ∧ |r.1 - z| ≤ |x2 - x1| / 2^(iterInit iter + 1) := by
  intro r
  have hs := zNLE_Bisec_bracketed f x1 x2 tol iter rnd htol h
  cases hr : r.2 with
  | true => exact Or.inl (hs.root hr)
  | false =>
    right
    obtain ⟨lo, hlo, hi, hhi, he, hneg, hw⟩ := hs.bracket hr
    have hsub : uIcc lo hi ⊆ uIcc x1 x2 := uIcc_subset_uIcc hlo hhi
    have h0 : (0 : ℝ) ∈ uIcc (f lo) (f hi) := by
      rw [mem_uIcc]
      rcases mul_neg_iff.1 hneg with ⟨a, b⟩ | ⟨a, b⟩
      · right; exact ⟨b.le, a.le⟩
      · left; exact ⟨a.le, b.le⟩
    obtain ⟨z, hz, hfz⟩ := intermediate_value_uIcc (hc.mono hsub) h0
    refine ⟨z, hsub hz, hfz, ?_⟩
    rw [← hw]
    rcases he with he | he
    · rw [show r.1 = lo from he, abs_sub_comm lo z]; exact abs_sub_left_of_mem_uIcc hz
    · rw [show r.1 = hi from he]; exact abs_sub_right_of_mem_uIcc hz

/-- C50 is violated when the given ends do not bracket a root: here the random search meets the root `1/2`, and the code reports success but
returns the end `0` of the given interval, where the function is `1/4`. -/
theorem zNLE_Bisec_random_violated :
    zNLE_Bisec (fun x : ℚ => (x - 1/2)^2) 0 1 0 0 (fun _ => (1/2, 1/2)) = (0, true) ∧ (fun x : ℚ => (x - 1/2)^2) 0 = 1/4 := by
  constructor
  · have h : ∀ n, bracketLoop (fun x : ℚ => (x - 1/2)^2) 0 (fun _ => (1/2, 1/2)) (n+2) 0 0 1 = .root1 := by
      intro n; norm_num [bracketLoop]
    unfold zNLE_Bisec
    dsimp only
    rw [show iterInit 0 = 9998 + 2 from rfl, h]
  · norm_num

/-- The part of C50 that holds without a bracket: when the search has hit upon two points of opposite signs the result is as from that
bracket. -/
theorem zNLE_Bisec_unbracketed_partial (f : K → K) (x1 x2 tol : K) (iter : Int) (rnd : Nat → K × K) (htol : 0 ≤ tol) :
    (∃ y1 y2, ((y1 = x1 ∧ y2 = x2) ∨ ∃ k, y1 = (rnd k).1 ∧ y2 = (rnd k).2) ∧
      BisecSpec f y1 y2 tol (|y2 - y1| / 2^(iterInit iter + 1)) (zNLE_Bisec f x1 x2 tol iter rnd)) ∨
    zNLE_Bisec f x1 x2 tol iter rnd ∈ ({(0, false), (x1, true), (x2, true)} : Set (K × Bool)) := by
  cases e : bracketLoop f tol rnd (iterInit iter) 0 x1 x2 with
  | fail => right; simp [zNLE_Bisec, e]
  | root1 => right; simp [zNLE_Bisec, e]
  | root2 => right; simp [zNLE_Bisec, e]
  | found y1 y2 g1 g2 =>
    obtain ⟨a, b, c, d⟩ := bracketLoop_found f tol rnd _ _ _ _ _ _ _ _ e
    left
    refine ⟨y1, y2, ?_, ?_⟩
    · rcases d with d | ⟨k, _, d⟩
      · exact Or.inl d
      · exact Or.inr ⟨k, d⟩
    · unfold zNLE_Bisec
      dsimp only
      rw [e]
      simp only [a]
      exact bisecLoop_spec f tol htol _ y1 y2 0 c (by omega)

/-! ## Regula falsi -/

theorem secant_mem {x1 x2 f1 f2 : K} (h : f1 * f2 < 0) : f2 - f1 ≠ 0 ∧ (f2 * x1 - f1 * x2) / (f2 - f1) ∈ uIcc x1 x2 := by
  have hne : f2 - f1 ≠ 0 := by
    intro h0
    have : f1 = f2 := by linarith
    rw [this] at h; nlinarith [mul_self_nonneg f2]
  refine ⟨hne, ?_⟩
  have e1 : (f2 * x1 - f1 * x2) / (f2 - f1) = x1 + (-f1 / (f2 - f1)) * (x2 - x1) := by field_simp; ring
  have ht0 : 0 ≤ -f1 / (f2 - f1) ∧ -f1 / (f2 - f1) ≤ 1 := by
    rcases mul_neg_iff.1 h with ⟨a, b⟩ | ⟨a, b⟩
    · constructor
      · exact div_nonneg_of_nonpos (by linarith) (by linarith)
      · rw [div_le_one_of_neg (by linarith)]; linarith
    · constructor
      · exact div_nonneg (by linarith) (by linarith)
      · rw [div_le_one (by linarith)]; linarith
  rw [e1, mem_uIcc]
  generalize -f1 / (f2 - f1) = t at ht0
  obtain ⟨t0, t1⟩ := ht0
  rcases le_total x1 x2 with hx | hx
  · left; constructor <;> nlinarith [mul_nonneg t0 (sub_nonneg.2 hx), mul_nonneg (sub_nonneg.2 t1) (sub_nonneg.2 hx)]
  · right; constructor <;> nlinarith [mul_nonneg t0 (sub_nonneg.2 hx), mul_nonneg (sub_nonneg.2 t1) (sub_nonneg.2 hx)]

theorem rfLoop_spec (f : K → K) (tol : K) (htol : 0 ≤ tol) (a b : K) (n : Nat) (x1 x2 xc : K) (h : f x1 * f x2 < 0)
    (h1 : x1 ∈ uIcc a b) (h2 : x2 ∈ uIcc a b) (hc : n = 0 → xc ∈ uIcc a b) :
    ∃ r, rfLoop f tol n x1 x2 (f x1) (f x2) xc = .ok r ∧ r.1 ∈ uIcc a b ∧ (r.2 = true → |f r.1| ≤ tol) := by
  induction n generalizing x1 x2 xc with
  | zero => exact ⟨_, rfl, hc rfl, by simp⟩
  | succ n ih =>
    unfold rfLoop
    obtain ⟨hne, hm⟩ := secant_mem (x1 := x1) (x2 := x2) h
    have hm' := uIcc_subset_uIcc h1 h2 hm
    rw [if_neg hne]
    generalize (f x2 * x1 - f x1 * x2) / (f x2 - f x1) = y at hm hm' ⊢
    dsimp only
    split_ifs with g1 g2
    · exact ⟨_, rfl, hm', fun _ => g1⟩
    · exact ih x1 y y g2 h1 hm' (fun _ => hm')
    · exact ih y x2 y (neg_mul_of_same h (ne_zero_of_not_tiny htol g1) g2) hm' h2 (fun _ => hm')

/-- C50, regula falsi from a bracket: no division by zero happens, the result lies in the bracket, and a result given without a warning is a
root up to `tol`. -/
theorem zNLE_RF_bracketed (f : K → K) (x1 x2 tol : K) (iter : Int) (rnd : Nat → K × K) (htol : 0 ≤ tol) (h : f x1 * f x2 < 0) :
    ∃ r, zNLE_RF f x1 x2 tol iter rnd = .ok r ∧ r.1 ∈ uIcc x1 x2 ∧ (r.2 = true → |f r.1| ≤ tol) := by
  unfold zNLE_RF
  dsimp only
  rcases bracketLoop_bracketed f tol rnd _ (iterInit_pos iter) x1 x2 h with ⟨e, h1⟩ | ⟨e, h1⟩ | e
  · rw [e]; exact ⟨_, rfl, left_mem_uIcc, fun _ => h1⟩
  · rw [e]; exact ⟨_, rfl, right_mem_uIcc, fun _ => h1⟩
  · rw [e]
    have := iterInit_pos iter
    exact rfLoop_spec f tol htol x1 x2 _ x1 x2 0 h left_mem_uIcc right_mem_uIcc (by omega)

example : zNLE_RF (fun x : ℚ => x^2 - 2) 0 2 (1/10) 2 (fun _ => (0, 0)) = .ok (4/3, false) := by
  have e : iterInit 2 = 2 := rfl
  norm_num [zNLE_RF, e, bracketLoop, rfLoop, abs_of_pos, abs_of_neg]

/-! ## The secant method -/

theorem secantLoop_spec (f : K → K) (tol : K) (n : Nat) (x1 x2 f1 f2 xc : K) (r : K × Bool)
    (h : secantLoop f tol n x1 x2 f1 f2 xc = .ok r) (hr : r.2 = true) : |f r.1| ≤ tol := by
  induction n generalizing x1 x2 f1 f2 xc with
  | zero => simp [secantLoop] at h; rw [← h] at hr; simp at hr
  | succ n ih =>
    unfold secantLoop at h
    dsimp only at h
    split_ifs at h with h1 h2
    · simp only [Res.ok.injEq] at h; rw [← h]; exact h2
    · exact ih _ _ _ _ _ h

/-- C50, the secant method from any two points: a result given without a warning is a root up to `tol`. -/
theorem zNLE_Secant_root (f : K → K) (x1 x2 tol : K) (iter : Int) (rnd : Nat → K) (r : K × Bool)
    (h : zNLE_Secant f x1 x2 tol iter rnd = .ok r) (hr : r.2 = true) : |f r.1| ≤ tol := by
  unfold zNLE_Secant at h
  generalize iterInit iter = it at h
  have : ∀ (k count : Nat) (x1 x2 : K), secantStart f tol it rnd k count x1 x2 = .ok r → |f r.1| ≤ tol := by
    intro k
    induction k with
    | zero =>
      intro count x1 x2 h
      unfold secantStart at h
      split_ifs at h with a b c
      · simp only [Res.ok.injEq] at h; rw [← h]; exact a
      · simp only [Res.ok.injEq] at h; rw [← h]; exact b
      · simp only [Res.ok.injEq] at h; rw [← h] at hr; simp at hr
      · exact secantLoop_spec f tol _ _ _ _ _ _ r h hr
    | succ k ih =>
      intro count x1 x2 h
      unfold secantStart at h
      split_ifs at h with a b c
      · simp only [Res.ok.injEq] at h; rw [← h]; exact a
      · simp only [Res.ok.injEq] at h; rw [← h]; exact b
      · exact ih _ _ _ h
      · exact secantLoop_spec f tol _ _ _ _ _ _ r h hr
  exact this _ _ _ _ h

example : zNLE_Secant (fun x : ℚ => 2 * x - 3) 0 5 0 4 (fun _ => 0) = .ok (3/2, true) := by
  have e : iterInit 4 = 4 := rfl
  norm_num [zNLE_Secant, secantStart, secantLoop, e]

/-! ## The Van Wijngaarden-Dekker-Brent method -/

/-- Values are those of the function, the points are in the bracket, and the function has opposite signs at `x1` and `x3`. -/
structure VInv (f : K → K) (a b : K) (s : VDB K) : Prop where
  v1 : s.f1 = f s.x1
  v2 : s.f2 = f s.x2
  v3 : s.f3 = f s.x3
  m1 : s.x1 ∈ uIcc a b
  m2 : s.x2 ∈ uIcc a b
  m3 : s.x3 ∈ uIcc a b

theorem vdbOrder_spec (f : K → K) (a b : K) (s : VDB K) (h : VInv f a b s) (hs : s.f1 * s.f3 < 0) :
    VInv f a b (vdbOrder s) ∧ (vdbOrder s).f2 * (vdbOrder s).f3 ≤ 0 ∧ |(vdbOrder s).f2| ≤ |(vdbOrder s).f3| := by
  obtain ⟨v1, v2, v3, m1, m2, m3⟩ := h
  unfold vdbOrder
  dsimp only
  by_cases h1 : s.f2 * s.f3 > 0
  · have h12 : s.f1 * s.f2 < 0 := by
      rcases mul_neg_iff.1 hs with ⟨p, q⟩ | ⟨p, q⟩
      · have : s.f2 < 0 := by
          by_contra hc; push Not at hc
          nlinarith [mul_nonneg hc (neg_nonneg.2 q.le)]
        exact mul_neg_of_pos_of_neg p this
      · have : 0 < s.f2 := by
          by_contra hc; push Not at hc
          nlinarith [mul_nonneg (neg_nonneg.2 hc) q.le]
        exact mul_neg_of_neg_of_pos p this
    simp only [h1, if_true]
    split_ifs with h2
    · exact ⟨⟨v2, v1, v2, m2, m1, m2⟩, h12.le, h2.le⟩
    · exact ⟨⟨v1, v2, v1, m1, m2, m1⟩, by rw [mul_comm]; exact h12.le, not_lt.1 h2⟩
  · simp only [h1, if_false]
    split_ifs with h2
    · exact ⟨⟨v2, v3, v2, m2, m3, m2⟩, by rw [mul_comm]; exact not_lt.1 h1, h2.le⟩
    · exact ⟨⟨v1, v2, v3, m1, m2, m3⟩, not_lt.1 h1, not_lt.1 h2⟩

/-- The step never divides by zero and does not go past `x3`. -/
theorem vdbStep_spec (tol2 : K) (s : VDB K) (htol : 0 ≤ tol2) (h3 : s.f3 ≠ 0) :
    ∃ d, vdbStep tol2 s = .ok d ∧ s.x2 + d ∈ uIcc s.x2 s.x3 := by
  have hmid : s.x2 + (1/2) * (s.x3 - s.x2) ∈ uIcc s.x2 s.x3 := by
    have := mid_mem s.x2 s.x3
    have e : s.x2 + (1/2) * (s.x3 - s.x2) = (1/2) * (s.x2 + s.x3) := by ring
    rw [e]; exact this
  unfold vdbStep
  dsimp only
  by_cases hc : |(1/2) * (s.x3 - s.x2)| ≥ tol2 ∧ |s.f1| > |s.f2|
  · have hf1 : s.f1 ≠ 0 := by
      intro h0; rw [h0, abs_zero] at hc; exact absurd hc.2 (not_lt.2 (abs_nonneg _))
    simp only [hc, and_self, if_true, hf1, if_false, h3, and_false]
    generalize (if s.x1 = s.x3 then 2 * ((1/2) * (s.x3 - s.x2)) * (s.f2 / s.f1) else _ : K) = p
    generalize (if p > 0 then -(if s.x1 = s.x3 then 1 - s.f2 / s.f1 else (s.f1 / s.f3 - 1) * (s.f2 / s.f3 - 1) * (s.f2 / s.f1 - 1)) else _ : K) = q
    have hp : 0 ≤ (if p > 0 then p else -p) := by split_ifs with h <;> linarith
    generalize (if p > 0 then p else -p) = p' at hp ⊢
    split_ifs with g1 g2
    · exfalso
      rw [g2] at g1
      simp at g1
      linarith
    · refine ⟨_, rfl, ?_⟩
      rw [lt_min_iff] at g1
      obtain ⟨g1, g3⟩ := g1
      have hxq : 0 < (1/2) * (s.x3 - s.x2) * q := by
        have := abs_nonneg (tol2 * q)
        linarith
      rw [abs_of_pos hxq] at g3
      rw [mem_uIcc]
      rcases lt_or_gt_of_ne g2 with hq | hq
      · right
        have hx : s.x3 - s.x2 < 0 := by
          by_contra hh; push Not at hh
          nlinarith [mul_nonneg hh (neg_nonneg.2 hq.le)]
        constructor
        · have : s.x3 - s.x2 ≤ p' / q := by rw [le_div_iff_of_neg hq]; nlinarith
          linarith
        · have : p' / q ≤ 0 := div_nonpos_of_nonneg_of_nonpos hp hq.le
          linarith
      · left
        have hx : 0 < s.x3 - s.x2 := by
          by_contra hh; push Not at hh
          nlinarith [mul_nonneg (neg_nonneg.2 hh) hq.le]
        constructor
        · have : 0 ≤ p' / q := div_nonneg hp hq.le
          linarith
        · have : p' / q ≤ s.x3 - s.x2 := by rw [div_le_iff₀ hq]; nlinarith
          linarith
    · exact ⟨_, rfl, hmid⟩
  · rw [if_neg hc]; exact ⟨_, rfl, hmid⟩

theorem vdbLoop_spec (f : K → K) (a b tol ztol : K) (htol : 0 ≤ tol) (hz : 0 ≤ ztol) (n : Nat) (s : VDB K) (h : VInv f a b s) (hs : s.f1 * s.f3 < 0) :
    ∃ r, vdbLoop f tol ztol n s = .ok r ∧ r.1 ∈ uIcc a b ∧
      (r.2 = true → |f r.1| ≤ tol ∨ ∃ y ∈ uIcc a b, f r.1 * f y ≤ 0 ∧ |y - r.1| ≤ 2 * (2 * ztol * |r.1| + (1/2) * ztol)) := by
  induction n generalizing s with
  | zero => exact ⟨_, rfl, h.m3, by simp⟩
  | succ n ih =>
    unfold vdbLoop
    obtain ⟨hi, hle, habs⟩ := vdbOrder_spec f a b s h hs
    generalize vdbOrder s = t at hi hle habs ⊢
    dsimp only
    by_cases hc : |(1/2) * (t.x3 - t.x2)| ≤ vdbTol ztol t.x2 ∨ |t.f2| ≤ tol
    · rw [if_pos hc]
      refine ⟨_, rfl, hi.m2, fun _ => ?_⟩
      rcases hc with hc | hc
      · right
        refine ⟨t.x3, hi.m3, by dsimp only; rw [← hi.v2, ← hi.v3]; exact hle, ?_⟩
        rw [abs_mul, abs_of_pos (by norm_num : (0:K) < 1/2)] at hc
        unfold vdbTol at hc
        dsimp only
        linarith
      · left; dsimp only; rw [← hi.v2]; exact hc
    · rw [if_neg hc]
      push Not at hc
      have hf2 : t.f2 ≠ 0 := ne_zero_of_not_tiny htol (not_le.2 hc.2)
      have hf3 : t.f3 ≠ 0 := by
        intro h0; rw [h0, abs_zero] at habs
        exact hf2 (abs_eq_zero.1 (le_antisymm habs (abs_nonneg _)))
      have hneg : t.f2 * t.f3 < 0 := lt_of_le_of_ne hle (mul_ne_zero hf2 hf3)
      have htol2 : 0 ≤ vdbTol ztol t.x2 := by
        unfold vdbTol; have := abs_nonneg t.x2; positivity
      obtain ⟨d, hd, hmem⟩ := vdbStep_spec (vdbTol ztol t.x2) t htol2 hf3
      rw [hd]
      show ∃ r, vdbLoop f tol ztol n _ = .ok r ∧ _
      apply ih
      · refine ⟨hi.v2, rfl, hi.v3, hi.m2, ?_, hi.m3⟩
        have hsub := uIcc_subset_uIcc hi.m2 hi.m3
        dsimp only
        split_ifs with h1
        · exact hsub hmem
        · have e : t.x2 + (1/2) * (t.x3 - t.x2) = (1/2) * (t.x2 + t.x3) := by ring
          rw [e]; exact hsub (mid_mem _ _)
      · exact hneg

/-- C50, the Van Wijngaarden-Dekker-Brent method from a bracket: no division by zero happens, the result `x` lies in the bracket, and a result
given without a warning is a root up to `tol`, or the function has opposite signs at `x` and at a point of the bracket within
`4 ztol |x| + ztol` of it. -/
theorem zNLE_VDB_bracketed (f : K → K) (x1 x2 tol ztol : K) (iter : Int) (rnd : Nat → K × K) (htol : 0 ≤ tol) (hz : 0 ≤ ztol) (h : f x1 * f x2 < 0) :
    ∃ r, zNLE_VDB f x1 x2 tol ztol iter rnd = .ok r ∧ r.1 ∈ uIcc x1 x2 ∧
      (r.2 = true → |f r.1| ≤ tol ∨ ∃ y ∈ uIcc x1 x2, f r.1 * f y ≤ 0 ∧ |y - r.1| ≤ 4 * ztol * |r.1| + ztol) := by
  unfold zNLE_VDB
  dsimp only
  rcases bracketLoop_bracketed f tol rnd _ (iterInit_pos iter) x1 x2 h with ⟨e, h1⟩ | ⟨e, h1⟩ | e
  · rw [e]; exact ⟨_, rfl, left_mem_uIcc, fun _ => Or.inl h1⟩
  · rw [e]; exact ⟨_, rfl, right_mem_uIcc, fun _ => Or.inl h1⟩
  · rw [e]
    obtain ⟨r, a, b, c⟩ := vdbLoop_spec f x1 x2 tol ztol htol hz (iterInit iter)
      { x1 := x1, x2 := x2, x3 := x2, f1 := f x1, f2 := f x2, f3 := f x2 } ⟨rfl, rfl, rfl, left_mem_uIcc, right_mem_uIcc, right_mem_uIcc⟩ h
    refine ⟨r, a, b, fun hr => ?_⟩
    rcases c hr with c | ⟨y, hy, c1, c2⟩
    · exact Or.inl c
    · exact Or.inr ⟨y, hy, c1, by linarith⟩

example : zNLE_VDB (fun x : ℚ => x - 1/3) 0 1 0 (1/1000) 1 (fun _ => (0, 0)) = .ok (1, false) := by
  have e : iterInit 1 = 1 := rfl
  norm_num [zNLE_VDB, e, bracketLoop, vdbLoop, vdbOrder, vdbTol, vdbStep, Res.bind, abs_of_pos, abs_of_neg]

/-! ## Line search -/

/-- `f` falls strictly until `m` and rises strictly from there. -/
structure Unimodal (f : K → K) (a b m : K) : Prop where
  left : a ≤ m
  right : m ≤ b
  falls : ∀ x y, a ≤ x → x < y → y ≤ m → f y < f x
  rises : ∀ x y, m ≤ x → x < y → y ≤ b → f x < f y

theorem Unimodal.min {f : K → K} {a b m : K} (h : Unimodal f a b m) (x : K) (ha : a ≤ x) (hb : x ≤ b) : f m ≤ f x := by
  rcases lt_trichotomy x m with hx | hx | hx
  · exact (h.falls x m ha hx le_rfl).le
  · rw [hx]
  · exact (h.rises m x le_rfl hx hb).le

theorem Unimodal.gt {f : K → K} {a b m x y : K} (h : Unimodal f a b m) (ha : a ≤ x) (hxy : x ≤ y) (hb : y ≤ b) (hf : f y < f x) : x ≤ m := by
  by_contra hc; push Not at hc
  rcases lt_or_eq_of_le hxy with hlt | he
  · exact absurd (h.rises x y hc.le hlt hb) (not_lt.2 hf.le)
  · rw [he] at hf; exact lt_irrefl _ hf

theorem Unimodal.lt {f : K → K} {a b m x y : K} (h : Unimodal f a b m) (ha : a ≤ x) (hxy : x ≤ y) (hb : y ≤ b) (hf : f x < f y) : m ≤ y := by
  by_contra hc; push Not at hc
  rcases lt_or_eq_of_le hxy with hlt | he
  · exact absurd (h.falls x y ha hlt hc.le) (not_lt.2 hf.le)
  · rw [he] at hf; exact lt_irrefl _ hf

theorem Unimodal.eq {f : K → K} {a b m x y : K} (h : Unimodal f a b m) (ha : a ≤ x) (hxy : x < y) (hb : y ≤ b) (hf : f x = f y) : x ≤ m ∧ m ≤ y := by
  constructor
  · by_contra hc; push Not at hc
    exact absurd (h.rises x y hc.le hxy hb) (by rw [hf]; exact lt_irrefl _)
  · by_contra hc; push Not at hc
    exact absurd (h.falls x y ha hxy hc.le) (by rw [hf]; exact lt_irrefl _)

theorem zEqual_self (x tol : K) (htol : 0 ≤ tol) : zEqual (.fin x) (.fin x) tol = true := by
  rw [zEqual_iff]
  exact ⟨x, x, rfl, rfl, by simp only [sub_self, abs_zero]; exact mul_nonneg htol (le_trans zero_le_one (le_max_left _ _))⟩

/-- What a line search promises about its last interval. -/
structure SearchSpec (a b m tol c : K) (n : Nat) (r : K × K) : Prop where
  left : a ≤ r.1
  lo : r.1 ≤ m
  hi : m ≤ r.2
  right : r.2 ≤ b
  width : zEqual (.fin r.1) (.fin r.2) tol = true ∨ r.2 - r.1 ≤ c^n * (b - a)

theorem SearchSpec.mono {a b a' b' m tol c : K} {n : Nat} {r : K × K} (h : SearchSpec a' b' m tol c n r) (ha : a ≤ a') (hb : b' ≤ b)
    (hc : 0 ≤ c) (hw : b' - a' ≤ c * (b - a)) : SearchSpec a b m tol c (n+1) r := by
  refine ⟨ha.trans h.left, h.lo, h.hi, h.right.trans hb, ?_⟩
  rcases h.width with h | h
  · exact Or.inl h
  · right
    refine h.trans ?_
    rw [pow_succ, mul_assoc]
    exact mul_le_mul_of_nonneg_left hw (pow_nonneg hc n)

theorem goldenLoop_spec (f : K → K) (A B m r tol : K) (hu : Unimodal f A B m) (hr0 : 0 < r) (hr1 : r < 1/2) (hr : r^2 - 3*r + 1 = 0) (htol : 0 ≤ tol)
    (n : Nat) (a b x1 x2 : K) (hA : A ≤ a) (hB : b ≤ B) (hm1 : a ≤ m) (hm2 : m ≤ b) (h1 : x1 = a + r * (b - a)) (h2 : x2 = b - r * (b - a)) :
    SearchSpec a b m tol (1 - r) n (goldenLoop f r tol n ⟨a, b, x1, x2, f x1, f x2⟩) := by
  induction n generalizing a b x1 x2 with
  | zero => exact ⟨le_rfl, hm1, hm2, le_rfl, Or.inr (by simp [goldenLoop])⟩
  | succ n ih =>
    unfold goldenLoop
    dsimp only
    by_cases he : zEqual (.fin a) (.fin b) tol = true
    · rw [if_pos he]; exact ⟨le_rfl, hm1, hm2, le_rfl, Or.inl he⟩
    rw [if_neg he]
    have hab : a < b := by
      rcases lt_or_eq_of_le (hm1.trans hm2) with h | h
      · exact h
      · rw [h] at he; exact absurd (zEqual_self b tol htol) he
    have hw : 0 < b - a := by linarith
    have hrw : 0 < r * (b - a) := mul_pos hr0 hw
    have hrw2 : r * (b - a) < (1/2) * (b - a) := mul_lt_mul_of_pos_right hr1 hw
    have ha1 : a < x1 := by rw [h1]; linarith
    have h12 : x1 < x2 := by rw [h1, h2]; linarith
    have h2b : x2 < b := by rw [h2]; linarith
    have hrc : 0 ≤ 1 - r := by linarith
    by_cases g1 : f x1 > f x2
    · rw [if_pos g1]
      have hm := hu.gt (hA.trans ha1.le) h12.le (h2b.le.trans hB) g1
      refine (ih x1 b x2 _ (hA.trans ha1.le) hB hm hm2 ?_ rfl).mono ha1.le le_rfl hrc ?_
      · rw [h1, h2]; linear_combination (b - a) * hr
      · rw [h1]; linarith
    · rw [if_neg g1]
      by_cases g2 : f x1 < f x2
      · rw [if_pos g2]
        have hm := hu.lt (hA.trans ha1.le) h12.le (h2b.le.trans hB) g2
        refine (ih a x2 _ x1 hA (h2b.le.trans hB) hm1 hm rfl ?_).mono le_rfl h2b.le hrc ?_
        · rw [h1, h2]; linear_combination (-(b - a)) * hr
        · rw [h2]; linarith
      · rw [if_neg g2]
        have hm := hu.eq (hA.trans ha1.le) h12 (h2b.le.trans hB) (le_antisymm (not_lt.1 g1) (not_lt.1 g2))
        refine (ih x1 x2 _ _ (hA.trans ha1.le) (h2b.le.trans hB) hm.1 hm.2 rfl rfl).mono ha1.le h2b.le hrc ?_
        rw [h1, h2]; linarith

/-- C51, the golden section method with the exact ratio: the result is the middle of an interval of the given one that holds the minimiser;
its ends are equal up to the tolerance or it has shrunk by the golden ratio in each of the `iter` rounds. -/
theorem zOptLineGoldenSection_min (f : K → K) (a b m r tol : K) (iter : Int) (hu : Unimodal f a b m) (hr0 : 0 < r) (hr1 : r < 1/2)
    (hr : r^2 - 3*r + 1 = 0) (htol : 0 ≤ tol) :
    ∃ lo hi, zOptLineGoldenSection f r tol a b iter = (lo + hi) / 2 ∧ a ≤ lo ∧ lo ≤ m ∧ m ≤ hi ∧ hi ≤ b ∧
      (|lo - hi| ≤ tol * max 1 (max |lo| |hi|) ∨ hi - lo ≤ (1 - r)^(iterInit iter) * (b - a)) := by
  have h := goldenLoop_spec f a b m r tol hu hr0 hr1 hr htol (iterInit iter) a b _ _ le_rfl le_rfl hu.left hu.right rfl rfl
  refine ⟨_, _, ?_, h.left, h.lo, h.hi, h.right, ?_⟩
  · unfold zOptLineGoldenSection; ring
  · rcases h.width with h | h
    · left
      rw [zEqual_iff] at h
      obtain ⟨x, y, hx, hy, h⟩ := h
      injection hx with hx
      injection hy with hy
      rw [← hx, ← hy] at h
      exact h
    · exact Or.inr h

example : ∃ r : ℝ, 0 < r ∧ r < 1/2 ∧ r^2 - 3*r + 1 = 0 := by
  have h5 : Real.sqrt 5 ^ 2 = 5 := Real.sq_sqrt (by norm_num)
  have h0 := Real.sqrt_nonneg 5
  exact ⟨(3 - Real.sqrt 5) / 2, by nlinarith, by nlinarith, by nlinarith⟩

example : Unimodal (fun x : ℚ => (x - 1)^2) (-2) 5 1 :=
  ⟨by norm_num, by norm_num, fun x y _ _ _ => by show (y-1)^2 < (x-1)^2; nlinarith, fun x y _ _ _ => by show (x-1)^2 < (y-1)^2; nlinarith⟩

theorem trisectLoop_spec (f : K → K) (A B m tol : K) (hu : Unimodal f A B m) (htol : 0 ≤ tol)
    (n : Nat) (a b : K) (hA : A ≤ a) (hB : b ≤ B) (hm1 : a ≤ m) (hm2 : m ≤ b) :
    SearchSpec a b m tol (2/3) n (trisectLoop f tol n a b) := by
  induction n generalizing a b with
  | zero => exact ⟨le_rfl, hm1, hm2, le_rfl, Or.inr (by simp [trisectLoop])⟩
  | succ n ih =>
    unfold trisectLoop
    by_cases he : zEqual (.fin a) (.fin b) tol = true
    · rw [if_pos he]; exact ⟨le_rfl, hm1, hm2, le_rfl, Or.inl he⟩
    rw [if_neg he]
    have hab : a < b := by
      rcases lt_or_eq_of_le (hm1.trans hm2) with h | h
      · exact h
      · rw [h] at he; exact absurd (zEqual_self b tol htol) he
    obtain ⟨x1, h1⟩ : ∃ x, x = (2 * a + b) / 3 := ⟨_, rfl⟩
    obtain ⟨x2, h2⟩ : ∃ x, x = (a + 2 * b) / 3 := ⟨_, rfl⟩
    dsimp only
    rw [← h1, ← h2]
    have ha1 : a < x1 := by rw [h1]; linarith
    have h12 : x1 < x2 := by rw [h1, h2]; linarith
    have h2b : x2 < b := by rw [h2]; linarith
    by_cases g1 : f x1 > f x2
    · rw [if_pos g1]
      have hm := hu.gt (hA.trans ha1.le) h12.le (h2b.le.trans hB) g1
      refine (ih x1 b (hA.trans ha1.le) hB hm hm2).mono ha1.le le_rfl (by norm_num) ?_
      rw [h1]; linarith
    · rw [if_neg g1]
      by_cases g2 : f x1 < f x2
      · rw [if_pos g2]
        have hm := hu.lt (hA.trans ha1.le) h12.le (h2b.le.trans hB) g2
        refine (ih a x2 hA (h2b.le.trans hB) hm1 hm).mono le_rfl h2b.le (by norm_num) ?_
        rw [h2]; linarith
      · rw [if_neg g2]
        have hm := hu.eq (hA.trans ha1.le) h12 (h2b.le.trans hB) (le_antisymm (not_lt.1 g1) (not_lt.1 g2))
        refine (ih x1 x2 (hA.trans ha1.le) (h2b.le.trans hB) hm.1 hm.2).mono ha1.le h2b.le (by norm_num) ?_
        rw [h1, h2]; linarith

/-- C51, the trisection method: the result is the middle of an interval of the given one that holds the minimiser; its ends are equal up to
the tolerance or it has lost at least a third in each of the `iter` rounds. -/
theorem zOptLineTrisection_min (f : K → K) (a b m tol : K) (iter : Int) (hu : Unimodal f a b m) (htol : 0 ≤ tol) :
    ∃ lo hi, zOptLineTrisection f tol a b iter = (lo + hi) / 2 ∧ a ≤ lo ∧ lo ≤ m ∧ m ≤ hi ∧ hi ≤ b ∧
      (|lo - hi| ≤ tol * max 1 (max |lo| |hi|) ∨ hi - lo ≤ (2/3)^(iterInit iter) * (b - a)) := by
  have h := trisectLoop_spec f a b m tol hu htol (iterInit iter) a b le_rfl le_rfl hu.left hu.right
  refine ⟨_, _, ?_, h.left, h.lo, h.hi, h.right, ?_⟩
  · unfold zOptLineTrisection; ring
  · rcases h.width with h | h
    · left
      rw [zEqual_iff] at h
      obtain ⟨x, y, hx, hy, h⟩ := h
      injection hx with hx
      injection hy with hy
      rw [← hx, ← hy] at h
      exact h
    · exact Or.inr h

/-! ## Brent's line search -/

/-- The best point lies in the interval, its value is known, and it is not worse than `e`. -/
structure BInv (f : K → K) (A B e : K) (t : BR K) : Prop where
  A : A ≤ t.a
  B : t.b ≤ B
  a : t.a ≤ t.x
  b : t.x ≤ t.b
  v : t.ex = f t.x
  e : t.ex ≤ e

/-- The step never divides by zero and stays in the interval. -/
theorem brentStep_spec (r tol1 : K) (t : BR K) (hr0 : 0 ≤ r) (hr1 : r ≤ 1) (ht : 0 ≤ tol1) (ha : t.a ≤ t.x) (hb : t.x ≤ t.b)
    (hc : ¬ |t.x - (1/2) * (t.a + t.b)| ≤ 2 * tol1 - (1/2) * (t.b - t.a)) :
    ∃ ds, brentStep r tol1 t = .ok ds ∧ t.a ≤ t.x + ds.1 ∧ t.x + ds.1 ≤ t.b := by
  have hg : t.a ≤ t.x + r * (if t.x - (1/2) * (t.a + t.b) ≥ 0 then t.a - t.x else t.b - t.x) ∧
      t.x + r * (if t.x - (1/2) * (t.a + t.b) ≥ 0 then t.a - t.x else t.b - t.x) ≤ t.b := by
    have h1 : 0 ≤ t.x - t.a := by linarith
    have h2 : 0 ≤ t.b - t.x := by linarith
    split_ifs
    · constructor
      · nlinarith [mul_nonneg (sub_nonneg.2 hr1) h1]
      · nlinarith [mul_nonneg hr0 h1]
    · constructor
      · nlinarith [mul_nonneg hr0 h2]
      · nlinarith [mul_nonneg (sub_nonneg.2 hr1) h2]
  unfold brentStep
  dsimp only
  by_cases h1 : |t.s| ≤ tol1
  · rw [if_pos h1]; exact ⟨_, rfl, hg⟩
  rw [if_neg h1]
  generalize (2 * ((t.x - t.v) * (t.ex - t.ew) - (t.x - t.w) * (t.ex - t.ev)) : K) = q
  generalize (if q > 0 then -((t.x - t.v) * ((t.x - t.v) * (t.ex - t.ew)) - (t.x - t.w) * ((t.x - t.w) * (t.ex - t.ev))) else _ : K) = p
  by_cases h2 : (¬ |p| ≤ |(1/2) * |q| * t.s|) ∨ p ≤ |q| * (t.a - t.x) ∨ p ≥ |q| * (t.b - t.x)
  · rw [if_pos h2]; exact ⟨_, rfl, hg⟩
  rw [if_neg h2]
  push Not at h2
  obtain ⟨-, h3, h4⟩ := h2
  have hq : |q| ≠ 0 := by
    intro h0; rw [h0] at h3 h4; linarith
  rw [if_neg hq]
  have hq0 : 0 < |q| := lt_of_le_of_ne (abs_nonneg q) (Ne.symm hq)
  refine ⟨_, rfl, ?_⟩
  dsimp only
  by_cases h5 : t.x + p / |q| - t.a < 2 * tol1 ∨ t.b - (t.x + p / |q|) < 2 * tol1
  · rw [if_pos h5]
    by_cases h6 : t.x - (1/2) * (t.a + t.b) ≤ 0
    · rw [if_pos h6]
      rw [abs_of_nonpos h6] at hc
      push Not at hc
      constructor <;> linarith
    · rw [if_neg h6]
      push Not at h6
      rw [abs_of_pos h6] at hc
      push Not at hc
      constructor <;> linarith
  · rw [if_neg h5]
    have e3 : t.a - t.x < p / |q| := by rw [lt_div_iff₀ hq0]; linarith
    have e4 : p / |q| < t.b - t.x := by rw [div_lt_iff₀ hq0]; linarith
    constructor <;> linarith

theorem brentUpdate_inv (f : K → K) (A B e : K) (t : BR K) (h : BInv f A B e t) (d s : K) (h1 : t.a ≤ t.x + d) (h2 : t.x + d ≤ t.b) :
    BInv f A B e (brentUpdate f t d s) := by
  obtain ⟨hA, hB, ha, hb, hv, he⟩ := h
  unfold brentUpdate
  dsimp only
  by_cases c1 : f (t.x + d) ≤ t.ex
  · rw [if_pos c1]
    by_cases hd : d ≥ 0
    · refine ⟨?_, ?_, ?_, ?_, rfl, c1.trans he⟩ <;> simp only [hd, if_true] <;> linarith
    · push Not at hd
      refine ⟨?_, ?_, ?_, ?_, rfl, c1.trans he⟩ <;> simp only [not_le.2 hd, ge_iff_le, if_false] <;> linarith
  · rw [if_neg c1]
    have key : A ≤ (if d < 0 then t.x + d else t.a) ∧ (if d < 0 then t.b else t.x + d) ≤ B ∧
        (if d < 0 then t.x + d else t.a) ≤ t.x ∧ t.x ≤ (if d < 0 then t.b else t.x + d) := by
      split_ifs with hd
      · exact ⟨by linarith, hB, by linarith, hb⟩
      · exact ⟨hA, by linarith, ha, by linarith⟩
    generalize (if d < 0 then t.x + d else t.a) = a' at key ⊢
    generalize (if d < 0 then t.b else t.x + d) = b' at key ⊢
    obtain ⟨k1, k2, k3, k4⟩ := key
    split_ifs <;> exact ⟨k1, k2, k3, k4, hv, he⟩

/-- C88: for every function, Brent's line search never divides by zero, and its result lies in the given interval and is not worse than the
middle of the interval. -/
theorem zOptLineBrent_safe (f : K → K) (r eps ztol a b : K) (iter : Int) (hr0 : 0 ≤ r) (hr1 : r ≤ 1) (heps : 0 ≤ eps) (hz : 0 ≤ ztol) (hab : a ≤ b) :
    ∃ x, zOptLineBrent f r eps ztol a b iter = .ok x ∧ a ≤ x ∧ x ≤ b ∧ f x ≤ f ((a + b) / 2) := by
  have key : ∀ (n : Nat) (t : BR K), BInv f a b (f ((a + b) / 2)) t →
      ∃ x, brentLoop f r eps ztol n t = .ok x ∧ a ≤ x ∧ x ≤ b ∧ f x ≤ f ((a + b) / 2) := by
    intro n
    induction n with
    | zero => intro t h; exact ⟨_, rfl, h.A.trans h.a, h.b.trans h.B, h.v ▸ h.e⟩
    | succ n ih =>
      intro t h
      unfold brentLoop
      dsimp only
      by_cases hc : |t.x - (1/2) * (t.a + t.b)| ≤ 2 * (eps * |t.x| + ztol) - (1/2) * (t.b - t.a)
      · rw [if_pos hc]; exact ⟨_, rfl, h.A.trans h.a, h.b.trans h.B, h.v ▸ h.e⟩
      · rw [if_neg hc]
        have ht : 0 ≤ eps * |t.x| + ztol := by have := abs_nonneg t.x; positivity
        obtain ⟨ds, hds, h1, h2⟩ := brentStep_spec r _ t hr0 hr1 ht h.a h.b hc
        rw [hds]
        exact ih _ (brentUpdate_inv f a b _ t h ds.1 ds.2 h1 h2)
  have e : (1/2) * (a + b) = (a + b) / 2 := by ring
  unfold zOptLineBrent
  dsimp only
  rw [e]
  exact key _ _ ⟨le_rfl, le_rfl, by show a ≤ (a+b)/2; linarith, by show (a+b)/2 ≤ b; linarith, rfl, le_rfl⟩

example : ∃ x, zOptLineBrent (fun x : ℚ => x^2) (3/8) (1/1000000) (1/1000) (-1) 2 1 = .ok x ∧ x < 0 ∧ x^2 < (1/2)^2 := by
  refine ⟨-1/16, ?_, by norm_num, by norm_num⟩
  norm_num [zOptLineBrent, iterInit, brentLoop, brentStep, brentUpdate, Res.bind, abs_of_pos, abs_of_neg]

end
end Zm.OneD
