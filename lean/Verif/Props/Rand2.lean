import Verif.Props.Rand
import Mathlib.Tactic.FieldSimp

/-!
# C214: random variates by rejection

The logistic, Cauchy, t and two-variable variates: what is accepted, that no division by zero and no root of a negative number is carried out, and what comes out.
-/

set_option linter.unusedSectionVars false
namespace Zm.Rnd
noncomputable section

/-- C214: a logistic variate comes from the first draw that is not tiny, and is below `x` exactly where that draw is below the logistic distribution of `x`. -/
theorem zRandLog_spec (U : Nat → ℝ) (tol : ℝ) (ht : 0 ≤ tol) (hU : ∀ i, 0 ≤ U i ∧ U i < 1) (k pos j : Nat) (hj : j < k) (hskip : ∀ i < j, U (pos + i) ≤ tol) (hacc : tol < U (pos + j)) :
    ∃ v, zRandLog U tol k pos = .ok (v, pos + j + 1) ∧ ∀ x, v < x ↔ U (pos + j) < 1 / (1 + Real.exp (-x)) := by
  induction j generalizing k pos with
  | zero =>
    obtain ⟨k, rfl⟩ : ∃ k', k = k' + 1 := ⟨k - 1, by omega⟩
    rw [Nat.add_zero] at hacc ⊢
    have hu := hU pos
    have hp : 0 < U pos := lt_of_le_of_lt ht hacc
    have hq : 0 < 1 - U pos := by linarith
    refine ⟨Real.log (U pos / (1 - U pos)), ?_, ?_⟩
    · unfold zRandLog
      rw [if_neg (by rw [abs_of_pos hp]; exact not_le.2 hacc), if_neg hq.ne']
    · intro x
      rw [Nat.add_zero pos]
      rw [Real.log_lt_iff_lt_exp (div_pos hp hq), div_lt_iff₀ hq, lt_div_iff₀ (by positivity), Real.exp_neg]
      have he := Real.exp_pos x
      constructor
      · intro h
        have h2 : U pos * (Real.exp x)⁻¹ < 1 - U pos := by
          rw [← div_eq_mul_inv, div_lt_iff₀ he]; linarith
        linarith
      · intro h
        have h2 : U pos * (Real.exp x)⁻¹ < 1 - U pos := by linarith
        rw [← div_eq_mul_inv, div_lt_iff₀ he] at h2
        linarith
  | succ j ih =>
    obtain ⟨k, rfl⟩ : ∃ k', k = k' + 1 := ⟨k - 1, by omega⟩
    have h0 := hskip 0 (by omega)
    rw [Nat.add_zero] at h0
    have e : ∀ i, pos + 1 + i = pos + (i + 1) := by intro i; omega
    obtain ⟨v, h1, h2⟩ := ih k (pos + 1) (by omega) (by intro i hi; rw [e]; exact hskip _ (by omega)) (by rw [e]; exact hacc)
    refine ⟨v, ?_, by rw [e] at h2; exact h2⟩
    unfold zRandLog
    rw [if_pos (by rw [abs_of_nonneg (hU pos).1]; exact h0), h1, e]

/-- C214: a Cauchy variate is the slope of the first point that lies in the half disk, provided that the draw for its abscissa is not one. -/
theorem zRandCauchy_spec_partial (U : Nat → ℝ) (hU : ∀ i, 0 ≤ U i ∧ U i < 1) (k pos j : Nat) (hj : j < k)
    (hskip : ∀ i < j, 1 < (1 - U (pos + 2 * i)) ^ 2 + (2 * U (pos + 2 * i + 1) - 1) ^ 2)
    (hacc : (1 - U (pos + 2 * j)) ^ 2 + (2 * U (pos + 2 * j + 1) - 1) ^ 2 ≤ 1) :
    zRandCauchy U k pos = .ok ((2 * U (pos + 2 * j + 1) - 1) / (1 - U (pos + 2 * j)), pos + 2 * j + 2) := by
  have hd : gammaDisk U k pos = .ok (1 - U (pos + 2 * j), 2 * U (pos + 2 * j + 1) - 1, pos + 2 * j + 2) := by
    induction j generalizing k pos with
    | zero =>
      obtain ⟨k, rfl⟩ : ∃ k', k = k' + 1 := ⟨k - 1, by omega⟩
      unfold gammaDisk
      rw [Nat.mul_zero, Nat.add_zero] at hacc ⊢
      rw [if_neg (by rw [gt_iff_lt, not_lt]; nlinarith), Nat.add_zero pos]
    | succ j ih =>
      obtain ⟨k, rfl⟩ : ∃ k', k = k' + 1 := ⟨k - 1, by omega⟩
      have h0 := hskip 0 (by omega)
      rw [Nat.mul_zero, Nat.add_zero] at h0
      have e : ∀ i, pos + 2 + 2 * i = pos + 2 * (i + 1) := by intro i; omega
      have := ih k (pos + 2) (by omega) (by intro i hi; rw [e]; exact hskip _ (by omega)) (by rw [e]; exact hacc)
      unfold gammaDisk
      rw [if_pos (by nlinarith), this, e]
  unfold zRandCauchy
  rw [hd]
  exact if_neg (by have := hU (pos + 2 * j); intro hc; linarith [this.2])

/-- C214 is violated: the draws are those of `zRandMTF`, which may be one; the point then lies on the axis, is accepted, and the division is by zero. -/
theorem zRandCauchy_zero_violated (k : Nat) (U : Nat → ℝ) (h0 : U 0 = 1) (h1 : 0 ≤ U 1 ∧ U 1 ≤ 1) : zRandCauchy U (k + 1) 0 = .ub := by
  unfold zRandCauchy gammaDisk
  rw [if_neg (by rw [h0, gt_iff_lt, not_lt]; nlinarith)]
  simp [h0]

/-- The state of the generator before the `j`-th attempt at a t variate: each takes a normal number and a draw. -/
def tState (U : Nat → ℝ) : Nat → MT → MT
  | 0, mt => mt
  | j+1, mt => tState U j { (zRandND0 U mt).2 with pos := (zRandND0 U mt).2.pos + 1 }

/-- The normal number `a` of an attempt. -/
def tNormal (U : Nat → ℝ) (mt : MT) : ℝ := (zRandND0 U mt).1

/-- The draw of an attempt. -/
def tDraw (U : Nat → ℝ) (mt : MT) : ℝ := U (zRandND0 U mt).2.pos

/-- Marsaglia's criterion: `exp(-b-c) ≤ 1-b` with `b = a²/(n-2)` and `c = ln(1-u)/(1-n/2)`. -/
def TAccepts (U : Nat → ℝ) (n : ℝ) (mt : MT) : Prop :=
  Real.exp (-(tNormal U mt ^ 2 / (n - 2)) - Real.log (1 - tDraw U mt) / (1 - n / 2)) ≤ 1 - tNormal U mt ^ 2 / (n - 2)

/-- C214: a t variate of more than two degrees of freedom comes from the first attempt that meets the criterion, and is the root of a positive number that divides. -/
theorem zRandT_big (U : Nat → ℝ) (tol : ℝ) (n : ℝ) (hn : 2 < n) (k j : Nat) (mt : MT) (hj : j < k) (hskip : ∀ i < j, ¬ TAccepts U n (tState U i mt)) (hacc : TAccepts U n (tState U j mt)) :
    0 < (1 - 2 / n) * (1 - tNormal U (tState U j mt) ^ 2 / (n - 2)) ∧
    zRandT U tol k n mt = .ok (tNormal U (tState U j mt) / Real.sqrt ((1 - 2 / n) * (1 - tNormal U (tState U j mt) ^ 2 / (n - 2))), tState U (j + 1) mt) := by
  have hpos : 0 < (1 - 2 / n) * (1 - tNormal U (tState U j mt) ^ 2 / (n - 2)) := by
    apply mul_pos
    · have : 2 / n < 1 := by rw [div_lt_one (by linarith)]; exact hn
      linarith
    · exact lt_of_lt_of_le (Real.exp_pos _) hacc
  refine ⟨hpos, ?_⟩
  unfold zRandT
  rw [if_neg (by linarith)]
  induction j generalizing k mt with
  | zero =>
    obtain ⟨k, rfl⟩ : ∃ k', k = k' + 1 := ⟨k - 1, by omega⟩
    unfold zRandTBig
    have h1 : ¬ (Real.exp (-((zRandND0 U mt).1 * (zRandND0 U mt).1 / (n - 2)) - Real.log (1 - U (zRandND0 U mt).2.pos) / (1 - 1 / 2 * n)) > 1 - (zRandND0 U mt).1 * (zRandND0 U mt).1 / (n - 2)) := by
      rw [gt_iff_lt, not_lt]
      have h := hacc
      unfold TAccepts tNormal tDraw tState at h
      rw [pow_two, show 1 - n / 2 = 1 - 1 / 2 * n by ring] at h
      exact h
    have h2 : ¬ ((1 - 2 / n) * (1 - (zRandND0 U mt).1 * (zRandND0 U mt).1 / (n - 2)) ≤ 0) := by
      rw [not_le]
      have h := hpos
      unfold tNormal tState at h
      rw [pow_two] at h
      exact h
    dsimp only
    rw [if_neg h1, if_neg h2]
    simp only [tState, tNormal, pow_two]
  | succ j ih =>
    obtain ⟨k, rfl⟩ : ∃ k', k = k' + 1 := ⟨k - 1, by omega⟩
    have h0 := hskip 0 (by omega)
    have := ih k { (zRandND0 U mt).2 with pos := (zRandND0 U mt).2.pos + 1 } (by omega) (fun i hi => hskip (i + 1) (by omega)) hacc hpos
    unfold zRandTBig
    have h1 : Real.exp (-((zRandND0 U mt).1 * (zRandND0 U mt).1 / (n - 2)) - Real.log (1 - U (zRandND0 U mt).2.pos) / (1 - 1 / 2 * n)) > 1 - (zRandND0 U mt).1 * (zRandND0 U mt).1 / (n - 2) := by
      have h := h0
      unfold TAccepts tNormal tDraw tState at h
      rw [pow_two, show 1 - n / 2 = 1 - 1 / 2 * n by ring, not_le] at h
      exact h
    dsimp only
    rw [if_pos h1]
    exact this

/-- C214: a t variate of at most two degrees of freedom is a normal number divided by the root of a χ² variate, not tiny, over the degrees; that root is of a positive number. -/
theorem zRandT_small (U : Nat → ℝ) (hU : ∀ i, 0 ≤ U i ∧ U i ≤ 1) (tol : ℝ) (ht : 0 ≤ tol) (n : ℝ) (hn0 : 0 < n) (hn : n ≤ 2) (fuel : Nat) (mt : MT) (a : ℝ) (p : Nat)
    (ha : zRandChiSqr U fuel n mt.pos = .ok (a, p)) (hta : tol < a) (hf : 0 < fuel) :
    0 < a / n ∧ zRandT U tol fuel n mt = .ok ((zRandND0 U ⟨p, mt.ndSw, mt.ndLast⟩).1 / Real.sqrt (a / n), (zRandND0 U ⟨p, mt.ndSw, mt.ndLast⟩).2) := by
  have hp : 0 < a := lt_of_le_of_lt ht hta
  have hpos : 0 < a / n := div_pos hp hn0
  refine ⟨hpos, ?_⟩
  unfold zRandT
  rw [if_pos hn]
  obtain ⟨k, hk⟩ : ∃ k, fuel = k + 1 := ⟨fuel - 1, by omega⟩
  conv_lhs => rw [show zRandTSmall U tol fuel n mt.ndSw mt.ndLast fuel mt.pos = zRandTSmall U tol fuel n mt.ndSw mt.ndLast (k + 1) mt.pos by rw [← hk]]
  unfold zRandTSmall
  rw [ha]
  dsimp only
  rw [if_neg (by rw [abs_of_pos hp]; exact not_le.2 hta), if_neg (by push Not; exact ⟨hn0.ne', hpos⟩)]

/-- C214: a χ² variate that is tiny is drawn anew. -/
theorem zRandT_again (U : Nat → ℝ) (tol : ℝ) (n : ℝ) (fuel k : Nat) (sw : Bool) (last a : ℝ) (pos p : Nat) (ha : zRandChiSqr U fuel n pos = .ok (a, p)) (hta : |a| ≤ tol) :
    zRandTSmall U tol fuel n sw last (k + 1) pos = zRandTSmall U tol fuel n sw last k p := by
  conv_lhs => unfold zRandTSmall
  rw [ha]
  exact if_pos hta

/-- The point of the `i`-th attempt at a pair of variates, and its squared radius. -/
def pairPoint (U : Nat → ℝ) (pos i : Nat) : ℝ × ℝ := (2 * U (pos + 2 * i) - 1, 2 * U (pos + 2 * i + 1) - 1)
def pairRadius (U : Nat → ℝ) (pos i : Nat) : ℝ := (pairPoint U pos i).1 ^ 2 + (pairPoint U pos i).2 ^ 2

/-- C214: two related variates come from the first point in the unit disk that is not near its centre; for a relation between -1 and 1 the roots are of numbers that are not negative, and the half sum and the half difference are the coordinates on the unit circle, stretched by the exponential radius and the roots of 1+r and 1-r. -/
theorem zRandBinom2_spec (U : Nat → ℝ) (tol r : ℝ) (ht : 0 ≤ tol) (hr : -1 ≤ r ∧ r ≤ 1) (k pos j : Nat) (hj : j < k)
    (hskip : ∀ i < j, 1 < pairRadius U pos i ∨ pairRadius U pos i ≤ tol) (hacc : pairRadius U pos j ≤ 1) (htiny : tol < pairRadius U pos j) :
    ∃ x y, zRandBinom2 U tol r k pos = .ok (x, y, pos + 2 * j + 2) ∧
      ((x + y) / 2) = Real.sqrt (1 + r) * Real.sqrt (-Real.log (pairRadius U pos j)) * ((pairPoint U pos j).1 / Real.sqrt (pairRadius U pos j)) ∧
      ((x - y) / 2) = Real.sqrt (1 - r) * Real.sqrt (-Real.log (pairRadius U pos j)) * ((pairPoint U pos j).2 / Real.sqrt (pairRadius U pos j)) := by
  induction j generalizing k pos with
  | zero =>
    obtain ⟨k, rfl⟩ : ∃ k', k = k' + 1 := ⟨k - 1, by omega⟩
    have hs0 : 0 < pairRadius U pos 0 := lt_of_le_of_lt ht htiny
    have hl : 0 ≤ -Real.log (pairRadius U pos 0) := neg_nonneg.2 (Real.log_nonpos hs0.le hacc)
    have hd : 0 ≤ -Real.log (pairRadius U pos 0) / pairRadius U pos 0 := div_nonneg hl hs0.le
    have e : (2 * U pos - 1) * (2 * U pos - 1) + (2 * U (pos + 1) - 1) * (2 * U (pos + 1) - 1) = pairRadius U pos 0 := by
      unfold pairRadius pairPoint; simp only [Nat.mul_zero, Nat.add_zero]; ring
    have e1 : 2 * U pos - 1 = (pairPoint U pos 0).1 := by unfold pairPoint; simp only [Nat.mul_zero, Nat.add_zero]
    have e2 : 2 * U (pos + 1) - 1 = (pairPoint U pos 0).2 := by unfold pairPoint; simp only [Nat.mul_zero, Nat.add_zero]
    have hneg : ¬ ((1 + r) * (-Real.log (pairRadius U pos 0) / pairRadius U pos 0) < 0 ∨ (1 - r) * (-Real.log (pairRadius U pos 0) / pairRadius U pos 0) < 0) := by
      rw [not_or, not_lt, not_lt]
      exact ⟨mul_nonneg (by linarith [hr.1]) hd, mul_nonneg (by linarith [hr.2]) hd⟩
    refine ⟨Real.sqrt ((1 + r) * (-Real.log (pairRadius U pos 0) / pairRadius U pos 0)) * (2 * U pos - 1) + Real.sqrt ((1 - r) * (-Real.log (pairRadius U pos 0) / pairRadius U pos 0)) * (2 * U (pos + 1) - 1),
      Real.sqrt ((1 + r) * (-Real.log (pairRadius U pos 0) / pairRadius U pos 0)) * (2 * U pos - 1) - Real.sqrt ((1 - r) * (-Real.log (pairRadius U pos 0) / pairRadius U pos 0)) * (2 * U (pos + 1) - 1), ?_, ?_, ?_⟩
    · unfold zRandBinom2
      dsimp only
      rw [e, if_neg (by rw [not_or, gt_iff_lt, not_lt, abs_of_pos hs0, not_le]; exact ⟨hacc, htiny⟩), if_neg hneg]
    · rw [Real.sqrt_mul (by linarith [hr.1]), Real.sqrt_div hl, e1]; ring
    · rw [Real.sqrt_mul (by linarith [hr.2] : (0:ℝ) ≤ 1 - r), Real.sqrt_div hl, e2]; ring
  | succ j ih =>
    obtain ⟨k, rfl⟩ : ∃ k', k = k' + 1 := ⟨k - 1, by omega⟩
    have h0 := hskip 0 (by omega)
    have e : (2 * U pos - 1) * (2 * U pos - 1) + (2 * U (pos + 1) - 1) * (2 * U (pos + 1) - 1) = pairRadius U pos 0 := by
      unfold pairRadius pairPoint; simp only [Nat.mul_zero, Nat.add_zero]; ring
    have e1 : ∀ i, pairPoint U (pos + 2) i = pairPoint U pos (i + 1) := by
      intro i; unfold pairPoint; rw [show pos + 2 + 2 * i = pos + 2 * (i + 1) by omega]
    have e2 : ∀ i, pairRadius U (pos + 2) i = pairRadius U pos (i + 1) := by
      intro i; unfold pairRadius; rw [e1]
    obtain ⟨x, y, h1, h2, h3⟩ := ih k (pos + 2) (by omega) (by intro i hi; rw [e2]; exact hskip _ (by omega)) (by rw [e2]; exact hacc) (by rw [e2]; exact htiny)
    refine ⟨x, y, ?_, by rw [e1, e2] at h2; exact h2, by rw [e1, e2] at h3; exact h3⟩
    have hnn : 0 ≤ pairRadius U pos 0 := by unfold pairRadius; positivity
    unfold zRandBinom2
    dsimp only
    rw [e, if_pos (by rw [abs_of_nonneg hnn]; exact h0), h1, show pos + 2 + 2 * j = pos + 2 * (j + 1) by omega]

/-- Concrete numbers: the draw 3/4 is accepted at once. -/
example : ∃ v, zRandLog (fun _ => 3 / 4) (1 / 1000000000000) 1 0 = .ok (v, 1) ∧ ∀ x, v < x ↔ (3 / 4 : ℝ) < 1 / (1 + Real.exp (-x)) :=
  zRandLog_spec (fun _ => 3 / 4) _ (by norm_num) (by intro i; norm_num) 1 0 0 (by omega) (by intro i hi; omega) (by norm_num)

/-- Concrete numbers: the point (1/4, 1/2). -/
example : zRandCauchy (fun _ => 3 / 4) 1 0 = .ok (2, 2) := by
  rw [zRandCauchy_spec_partial (fun _ => 3 / 4) (by intro i; norm_num) 1 0 0 (by omega) (by intro i hi; omega) (by norm_num)]
  norm_num

/-- Concrete numbers: with a normal number of zero kept from the previous pair the attempt is accepted. -/
example : TAccepts (fun _ => 1 / 2) 4 ⟨0, true, 0⟩ := by
  unfold TAccepts tNormal tDraw zRandND0
  have h : Real.log (1 - 1 / 2) ≤ 0 := Real.log_nonpos (by norm_num) (by norm_num)
  norm_num at h ⊢
  rw [div_neg, div_one]
  linarith

/-- Concrete numbers: the point (1/2, 1/2). -/
example : pairRadius (fun _ => 3 / 4) 0 0 ≤ 1 ∧ (1 / 1000000000000 : ℝ) < pairRadius (fun _ => 3 / 4) 0 0 := by
  unfold pairRadius pairPoint; norm_num

end
end Zm.Rnd
