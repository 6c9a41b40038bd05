import Verif.Model.Img
import Verif.Props.Phase
import Verif.Props.MatMore
import Verif.Props.Complex

/-! # C241: the picture of a matrix; C242: search in arrays of complex numbers -/

set_option linter.unusedSectionVars false

namespace Zm.Img
open Zm Misc
noncomputable section

/-! ## Specification -/

/-- Four levels of size, with bounds at an eighth, three eighths and five eighths of the greatest absolute value `M`. -/
def level (M x : ℝ) : Fin 4 := if |x| < 1 / 8 * M then 0 else if |x| < 3 / 8 * M then 1 else if |x| < 5 / 8 * M then 2 else 3

/-- The character of an element: by its level, and by its sign except at the lowest level. -/
def shade (tol M x : ℝ) : Char :=
  if |x| ≤ tol then ' ' else if x < 0 ∧ level M x ≠ 0 then ![',', 'o', 'O', '@'] (level M x) else ![',', 'x', '*', 'M'] (level M x)

/-- The picture: a line for each row. -/
def picture (tol M : ℝ) (rows cols : Nat) (m : Nat → Nat → ℝ) : List Char :=
  (List.range rows).flatMap fun i => ((List.range cols).flatMap fun j => [shade tol M (m i j), ' ']) ++ ['\n']

/-! ## Elements -/

theorem toInt_cast (n : ℤ) (h1 : -4 ≤ n) (h2 : n ≤ 4) : Phase.toInt (n : ℝ) = .ok n := by
  unfold Phase.toInt
  simp only [Int.floor_intCast, Int.ceil_intCast, ite_self]
  rw [if_pos ⟨by omega, by omega⟩]

theorem level_eq {M x : ℝ} (hM : 0 < M) (y : ℝ) (hy : y = x / (1 / 4 * M)) : level M x = if |y| < 1 / 2 then 0 else if |y| < 3 / 2 then 1 else if |y| < 5 / 2 then 2 else 3 := by
  have e : |x| = |y| * (1 / 4 * M) := by
    rw [hy, abs_div, abs_of_pos (by positivity : (0 : ℝ) < 1 / 4 * M)]
    field_simp
  have k : ∀ c : ℝ, |x| < c / 4 * M ↔ |y| < c := fun c => by
    rw [e, show c / 4 * M = c * (1 / 4 * M) by ring]
    exact mul_lt_mul_iff_left₀ (by positivity)
  unfold level
  rw [show (1 : ℝ) / 8 * M = (1 / 2) / 4 * M by ring, show (3 : ℝ) / 8 * M = (3 / 2) / 4 * M by ring, show (5 : ℝ) / 8 * M = (5 / 2) / 4 * M by ring]
  simp only [k]

theorem elem_ok (tol M x : ℝ) (hM : 0 < M) (hx : |x| ≤ M) : imgElem tol (1 / 4 * M) x = .ok [shade tol M x, ' '] := by
  unfold imgElem shade zIsTol
  by_cases ht : |x| ≤ tol
  · simp only [ht, decide_true, if_true]
  simp only [ht, decide_false, if_false, Bool.false_eq_true]
  rw [if_neg (by positivity)]
  obtain ⟨y, hy⟩ : ∃ y, y = x / (1 / 4 * M) := ⟨_, rfl⟩
  have hx' : x = y * (1 / 4 * M) := by rw [hy]; field_simp
  have hd : (0 : ℝ) < 1 / 4 * M := by positivity
  have b : |y| ≤ 4 := by
    rw [hy, abs_div, abs_of_pos hd, div_le_iff₀ hd]; linarith
  have b' := abs_le.1 b
  have sgn : x < 0 ↔ y < 0 := by
    rw [hx']
    constructor
    · intro h; by_contra c; have := mul_nonneg (not_lt.1 c) hd.le; linarith
    · intro h; exact mul_neg_of_neg_of_pos h hd
  rw [level_eq hM y hy, ← hy]
  obtain ⟨n, e, a1, a2⟩ := Phase.zRound_spec y (by linarith) (by linarith)
  rw [e]
  simp only [Res.bind]
  have a1' := abs_le.1 a1
  have n1 : -4 ≤ n := by
    have : (-5 : ℝ) < n := by linarith
    have : (-5 : ℤ) < n := by exact_mod_cast this
    omega
  have n2 : n ≤ 4 := by
    have : (n : ℝ) < 5 := by linarith
    have : n < (5 : ℤ) := by exact_mod_cast this
    omega
  rw [toInt_cast n n1 n2]
  simp only
  -- a tie is rounded away from zero
  have up : (n : ℝ) ≤ 0 → y > n - 1 / 2 ∧ y ≤ n + 1 / 2 ∨ y = n - 1 / 2 ∧ |y| < |(n : ℝ)| := fun _ => by
    rcases lt_or_eq_of_le (show (n : ℝ) - 1 / 2 ≤ y by linarith) with h | h
    · exact Or.inl ⟨h, by linarith⟩
    · exact Or.inr ⟨h.symm, a2 (by rw [← h]; norm_num)⟩
  have dn : y < n + 1 / 2 ∨ y = n + 1 / 2 ∧ |y| < |(n : ℝ)| := by
    rcases lt_or_eq_of_le (show y ≤ (n : ℝ) + 1 / 2 by linarith) with h | h
    · exact Or.inl h
    · exact Or.inr ⟨h, a2 (by rw [h]; norm_num)⟩
  simp only [sgn]
  rcases lt_trichotomy n 0 with hn | hn | hn
  · have hn' : (n : ℝ) ≤ -1 := by exact_mod_cast (by omega : n ≤ -1)
    have y0 : y < 0 := by linarith
    have l : (n : ℝ) - 1 / 2 < y := by
      rcases up (by linarith) with h | ⟨h, h2⟩
      · exact h.1
      · rw [abs_of_neg y0, abs_of_neg (by linarith)] at h2; linarith
    rw [abs_of_neg y0]
    have y1 : ¬ -y < 1 / 2 := by linarith
    simp only [if_neg y1, y0, true_and]
    interval_cases n
    · rw [if_neg (show ¬ -y < 3 / 2 by push_cast at *; linarith), if_neg (show ¬ -y < 5 / 2 by push_cast at *; linarith)]; rfl
    · rw [if_neg (show ¬ -y < 3 / 2 by push_cast at *; linarith), if_neg (show ¬ -y < 5 / 2 by push_cast at *; linarith)]; rfl
    · rw [if_neg (show ¬ -y < 3 / 2 by push_cast at *; linarith), if_pos (show -y < 5 / 2 by push_cast at *; linarith)]; rfl
    · rw [if_pos (show -y < 3 / 2 by push_cast at *; linarith)]; rfl
  · subst hn
    have u : |y| < 1 / 2 := by
      rw [Int.cast_zero, zero_sub, abs_neg] at a1 a2
      rcases lt_or_eq_of_le a1 with h | h
      · exact h
      · have := a2 h; rw [abs_zero] at this; linarith [abs_nonneg y]
    simp only [if_pos u, ne_eq, not_true, and_false, if_false]
    rfl
  · have hn' : (1 : ℝ) ≤ n := by exact_mod_cast (by omega : 1 ≤ n)
    have y0 : 0 < y := by linarith
    have l : y < n + 1 / 2 := by
      rcases dn with h | ⟨h, h2⟩
      · exact h
      · rw [abs_of_pos y0, abs_of_pos (by linarith)] at h2; linarith
    rw [abs_of_pos y0]
    have y1 : ¬ y < 1 / 2 := by linarith
    simp only [if_neg y1, not_lt.2 y0.le, false_and, if_false]
    interval_cases n
    · rw [if_pos (show y < 3 / 2 by push_cast at *; linarith)]; rfl
    · rw [if_neg (show ¬ y < 3 / 2 by push_cast at *; linarith), if_pos (show y < 5 / 2 by push_cast at *; linarith)]; rfl
    · rw [if_neg (show ¬ y < 3 / 2 by push_cast at *; linarith), if_neg (show ¬ y < 5 / 2 by push_cast at *; linarith)]; rfl
    · rw [if_neg (show ¬ y < 3 / 2 by push_cast at *; linarith), if_neg (show ¬ y < 5 / 2 by push_cast at *; linarith)]; rfl

/-! ## Pictures -/

theorem print_loop {β : Type*} (n : Nat) (f : Nat → List β → Res (List β)) (g : Nat → List β) (out : List β) (h : ∀ i o, i < n → f i o = .ok (o ++ g i)) :
    forUpM 0 n f out = .ok (out ++ (List.range n).flatMap g) := by
  obtain ⟨s, e, p⟩ := forUpM_ok (lo := 0) (hi := n) f out (fun k t => t = out ++ (List.range k).flatMap g) (Nat.zero_le _) (by simp) (by
    intro k t _ hk ht
    exact ⟨_, h k t hk, by rw [ht, List.range_succ, List.flatMap_append]; simp⟩)
  rw [e, p]

theorem rows_ok (tol M : ℝ) (rows cols : Nat) (m : Nat → Nat → ℝ) (hM : ∀ i j, i < rows → j < cols → imgElem tol (1 / 4 * M) (m i j) = .ok [shade tol M (m i j), ' ']) :
    imgRows tol (1 / 4 * M) rows cols m = .ok (picture tol M rows cols m) := by
  unfold imgRows
  have := print_loop rows (fun i out => (forUpM 0 cols (fun j out => (imgElem tol (1 / 4 * M) (m i j)).bind fun c => .ok (out ++ c)) out).bind fun out => .ok (out ++ ['\n']))
    (fun i => ((List.range cols).flatMap fun j => [shade tol M (m i j), ' ']) ++ ['\n']) [] (by
      intro i o hi
      rw [print_loop cols (fun j out => (imgElem tol (1 / 4 * M) (m i j)).bind fun c => .ok (out ++ c)) (fun j => [shade tol M (m i j), ' ']) o
        (fun j o hj => by simp only [hM i j hi hj, Res.bind])]
      simp only [Res.bind, List.append_assoc])
  rw [this]
  rfl

/-- C241: the picture of any matrix is printed: the characters stand for the sizes relative to the greatest absolute value; the patterns are never left, and nothing is divided by zero.
The full claim asks for signs at every level; see `zMatImg_sign_violated`. -/
theorem zMatImg_partial (tol : ℝ) (ht : 0 ≤ tol) (rows cols : Nat) (hr : 0 < rows) (hc : 0 < cols) (m : Nat → Nat → ℝ) (M : ℝ)
    (hM : IsGreatest {x | ∃ i j, i < rows ∧ j < cols ∧ x = |m i j|} M) : zMatImg tol rows cols m = .ok (picture tol M rows cols m) := by
  obtain ⟨b, e, f⟩ := Mat.zMatElemAbsMax_correct rows cols m hr hc
  obtain ⟨⟨i0, j0, hi0, hj0, e0⟩, ub⟩ := hM
  have eM : b.val = M := le_antisymm (f.2.2.1 ▸ ub ⟨_, _, f.1, f.2.1, rfl⟩) (e0 ▸ f.2.2.2.1 i0 j0 hi0 hj0)
  unfold zMatImg
  rw [e]
  simp only
  rw [eM]
  refine rows_ok tol M rows cols m fun i j hi hj => ?_
  have le : |m i j| ≤ M := ub ⟨i, j, hi, hj, rfl⟩
  by_cases h0 : 0 < M
  · exact elem_ok tol M _ h0 le
  · have : |m i j| ≤ tol := by linarith
    unfold imgElem shade zIsTol
    simp only [this, decide_true, if_true]

/-- C241: a matrix without rows prints nothing, and one with rows but no columns is read outside. -/
theorem zMatImg_empty (tol : ℝ) (m : Nat → Nat → ℝ) : (∀ cols, zMatImg tol 0 cols m = .ok []) ∧ ∀ rows, 0 < rows → zMatImg tol rows 0 m = .ub := by
  constructor
  · intro cols
    unfold zMatImg
    rw [(Mat.zMatElem_empty (rows := 0) (cols := cols) (m := m)).1.2.2.1]
    rfl
  · intro rows hr
    unfold zMatImg
    rw [((Mat.zMatElem_empty (rows := rows) (cols := 0) (m := m)).2 hr).2.2.1]

/-- C241 is violated: two matrices whose elements differ in sign have the same picture; the first character for negative elements is never printed. -/
theorem zMatImg_sign_violated : ∃ m1 m2 : Nat → Nat → ℝ, m1 0 1 < -1 ∧ 1 < m2 0 1 ∧ ∃ p, zMatImg (1 / 10 ^ 12) 1 2 m1 = .ok p ∧ zMatImg (1 / 10 ^ 12) 1 2 m2 = .ok p := by
  have g : ∀ c : ℝ, |c| = 2 → IsGreatest {x | ∃ i j, i < 1 ∧ j < 2 ∧ x = |(fun _ j => if j = 0 then (20 : ℝ) else c : Nat → Nat → ℝ) i j|} 20 := by
    intro c hc
    constructor
    · exact ⟨0, 0, by omega, by omega, by norm_num⟩
    · rintro x ⟨i, j, _, _, rfl⟩
      dsimp only
      split
      · norm_num
      · rw [hc]; norm_num
  have l : ∀ c : ℝ, |c| = 2 → shade (1 / 10 ^ 12) 20 c = ',' := by
    intro c hc
    have l0 : level 20 c = 0 := by unfold level; rw [hc]; norm_num
    unfold shade
    rw [l0, hc, if_neg (by norm_num)]
    simp
  have l20 : shade (1 / 10 ^ 12) 20 20 = 'M' := by
    have l0 : level 20 20 = 3 := by unfold level; norm_num
    unfold shade
    rw [l0, if_neg (by norm_num), if_neg (by norm_num)]
    rfl
  refine ⟨fun _ j => if j = 0 then 20 else -2, fun _ j => if j = 0 then 20 else 2, by norm_num, by norm_num, ['M', ' ', ',', ' ', '\n'], ?_, ?_⟩
  · rw [zMatImg_partial _ (by norm_num) 1 2 (by omega) (by omega) _ 20 (g (-2) (by norm_num))]
    simp only [picture, List.range_succ, List.range_zero, List.nil_append, List.cons_append, List.flatMap_cons, List.flatMap_nil, List.append_nil, if_true, one_ne_zero, if_false,
      l (-2) (by norm_num), l20]
  · rw [zMatImg_partial _ (by norm_num) 1 2 (by omega) (by omega) _ 20 (g 2 (by norm_num))]
    simp only [picture, List.range_succ, List.range_zero, List.nil_append, List.cons_append, List.flatMap_cons, List.flatMap_nil, List.append_nil, if_true, one_ne_zero, if_false,
      l 2 (by norm_num), l20]

/-! ## Complex numbers -/

/-- Two numbers agree up to the tolerance, relative to the greater one if it exceeds one. -/
def Near (tol x y : ℝ) : Prop := |x - y| ≤ tol * max 1 (max |x| |y|)

theorem included_go (array : Nat → ℂ) (c : ℂ) (tol : ℝ) (n : Nat) : ∀ i, zComplexValIsIncluded array c tol n i = true ↔ ∃ k, i ≤ k ∧ k < i + n ∧ Near tol (array k).re c.re ∧ Near tol (array k).im c.im := by
  induction n with
  | zero => intro i; simp [zComplexValIsIncluded]; omega
  | succ n ih =>
    intro i
    unfold zComplexValIsIncluded
    have q : Cplx.zComplexEqual (array i) c tol = true ↔ Near tol (array i).re c.re ∧ Near tol (array i).im c.im := by
      simp [Cplx.zComplexEqual, zEqual, zIsTol, Near]
    by_cases h : Cplx.zComplexEqual (array i) c tol = true
    · rw [if_pos h]
      exact ⟨fun _ => ⟨i, le_refl _, by omega, q.1 h⟩, fun _ => rfl⟩
    · rw [if_neg h, ih]
      constructor
      · rintro ⟨k, h1, h2, h3⟩; exact ⟨k, by omega, by omega, h3⟩
      · rintro ⟨k, h1, h2, h3⟩
        rcases Nat.eq_or_lt_of_le h1 with rfl | h1
        · exact absurd (q.2 h3) h
        · exact ⟨k, h1, by omega, h3⟩

theorem conj_go (array : Nat → ℂ) (c : ℂ) (tol : ℝ) (n : Nat) : ∀ i, zComplexValConjIsIncluded array c tol n i = zComplexValIsIncluded array (starRingEnd ℂ c) tol n i := by
  induction n with
  | zero => intro i; rfl
  | succ n ih => intro i; unfold zComplexValConjIsIncluded zComplexValIsIncluded; rw [ih]; rfl

/-- C242: the search finds exactly the numbers that agree with a member of the array up to the tolerance, in both parts. -/
theorem zComplexValIsIncluded_iff (array : Nat → ℂ) (size : Nat) (c : ℂ) (tol : ℝ) :
    zComplexValIsIncluded array c tol size 0 = true ↔ ∃ k, k < size ∧ Near tol (array k).re c.re ∧ Near tol (array k).im c.im := by
  rw [included_go]; simp

/-- C242: and the search for the conjugate those whose conjugate does. -/
theorem zComplexValConjIsIncluded_iff (array : Nat → ℂ) (size : Nat) (c : ℂ) (tol : ℝ) :
    zComplexValConjIsIncluded array c tol size 0 = true ↔ ∃ k, k < size ∧ Near tol (array k).re c.re ∧ Near tol (array k).im (-c.im) := by
  rw [conj_go, zComplexValIsIncluded_iff]; simp

/-- C242: with tolerance zero this is membership. -/
theorem zComplexValIsIncluded_exact (array : Nat → ℂ) (size : Nat) (c : ℂ) : zComplexValIsIncluded array c 0 size 0 = true ↔ ∃ k, k < size ∧ array k = c := by
  rw [zComplexValIsIncluded_iff]
  have q : ∀ x y : ℝ, Near 0 x y ↔ x = y := fun x y => by
    unfold Near; rw [zero_mul]
    exact ⟨fun h => by have := abs_nonpos_iff.1 h; linarith, fun h => by rw [h]; simp⟩
  simp only [q, Complex.ext_iff]

/-! ## Not vacuous -/

example : IsGreatest {x : ℝ | ∃ i j, i < 1 ∧ j < 1 ∧ x = |(fun _ _ => -3 : Nat → Nat → ℝ) i j|} 3 :=
  ⟨⟨0, 0, by omega, by omega, by norm_num⟩, by rintro x ⟨i, j, _, _, rfl⟩; norm_num⟩

example : picture 0 3 1 1 (fun _ _ => -3) = ['@', ' ', '\n'] := by
  have : shade 0 3 (-3) = '@' := by unfold shade level; norm_num; rfl
  simp [picture, List.range_succ, this]

example : zComplexValConjIsIncluded (fun k => ⟨k, 2⟩) ⟨3, -2⟩ 0 5 0 = true :=
  (zComplexValConjIsIncluded_iff _ _ _ _).2 ⟨3, by omega, by norm_num [Near], by norm_num [Near]⟩

end
end Zm.Img
