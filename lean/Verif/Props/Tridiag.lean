import Verif.Props.LE
import Mathlib.Tactic.Linarith

/-! # C19: tridiagonal systems -/

set_option linter.unusedSectionVars false

namespace Zm.LE
open Zm Misc Finset
variable {K : Type*} [Field K] [LinearOrder K] [IsStrictOrderedRing K]

/-- Specification: the pivots of Gaussian elimination without row exchange on the tridiagonal matrix with sub-diagonal
`a`, diagonal `b` and super-diagonal `c`. -/
def tdPivot (a b c : Nat → K) : Nat → K
  | 0 => b 0
  | i+1 => b (i+1) - c i / tdPivot a b c i * a (i+1)

def tdRhs (a b c d : Nat → K) : Nat → K
  | 0 => d 0
  | i+1 => d (i+1) - tdRhs a b c d i / tdPivot a b c i * a (i+1)

/-- The tridiagonal equations. -/
def TridiagSolves (n : Nat) (a b c d x : Nat → K) : Prop :=
  ∀ i, i < n → (if i = 0 then 0 else a i * x (i-1)) + b i * x i + (if i + 1 < n then c i * x (i+1) else 0) = d i

theorem tridiagForward_step (c a0 b0 d0 : Nat → K) (i : Nat) (h1 : 1 ≤ i) (a b d : Nat → K)
    (ha : ∀ t, i ≤ t → a t = a0 t)
    (hb : ∀ t, b t = if t < i then tdPivot a0 b0 c t else b0 t)
    (hd : ∀ t, d t = if t < i then tdRhs a0 b0 c d0 t else d0 t) :
    (∀ t, i + 1 ≤ t → set1 a i 0 t = a0 t) ∧
    (∀ t, set1 b i (b i - c (i-1) / b (i-1) * a i) t = if t < i + 1 then tdPivot a0 b0 c t else b0 t) ∧
    (∀ t, set1 d i (d i - d (i-1) / (set1 b i (b i - c (i-1) / b (i-1) * a i)) (i-1) * a i) t =
      if t < i + 1 then tdRhs a0 b0 c d0 t else d0 t) := by
  obtain ⟨j, rfl⟩ : ∃ j, i = j + 1 := ⟨i - 1, by omega⟩
  simp only [Nat.add_sub_cancel]
  refine ⟨?_, ?_, ?_⟩
  · intro t ht
    rw [set1_ne _ _ (by omega)]; exact ha t (by omega)
  · intro t
    by_cases h : t = j + 1
    · subst h
      rw [set1_same, if_pos (by omega), hb (j+1), hb j, if_neg (by omega), if_pos (by omega), ha _ (le_refl _), tdPivot]
    · rw [set1_ne _ _ h, hb t]
      by_cases h2 : t < j + 1
      · rw [if_pos h2, if_pos (by omega)]
      · rw [if_neg h2, if_neg (by omega)]
  · intro t
    by_cases h : t = j + 1
    · subst h
      rw [set1_same, if_pos (by omega), set1_ne _ _ (by omega), hb j, hd (j+1), hd j, if_neg (by omega), if_pos (by omega),
        if_pos (by omega), ha _ (le_refl _), tdRhs]
    · rw [set1_ne _ _ h, hd t]
      by_cases h2 : t < j + 1
      · rw [if_pos h2, if_pos (by omega)]
      · rw [if_neg h2, if_neg (by omega)]

/-- The forward sweep when no pivot before the last vanishes. -/
theorem tridiagForward_ok (n : Nat) (hn : 0 < n) (a b c d : Nat → K) (hp : ∀ i, i + 1 < n → tdPivot a b c i ≠ 0) :
    ∃ s, tridiagForward n c a b d = .ok s ∧ (∀ t, t < n → s.2.1 t = tdPivot a b c t) ∧ (∀ t, t < n → s.2.2 t = tdRhs a b c d t) := by
  obtain ⟨s, e, h1, h2, h3⟩ := forUpM_ok (lo := 1) (hi := n) (fun i (st : (Nat → K) × (Nat → K) × (Nat → K)) =>
    let (a, b, d) := st
    if b (i-1) = 0 then .fail
    else
      let b := set1 b i (b i - c (i-1) / b (i-1) * a i)
      let d := set1 d i (d i - d (i-1) / b (i-1) * a i)
      .ok (set1 a i 0, b, d)) (a, b, d)
    (fun i s => (∀ t, i ≤ t → s.1 t = a t) ∧ (∀ t, s.2.1 t = if t < i then tdPivot a b c t else b t) ∧
      (∀ t, s.2.2 t = if t < i then tdRhs a b c d t else d t)) hn
    ⟨fun _ _ => rfl, fun t => by
      by_cases h : t < 1
      · have : t = 0 := by omega
        subst this; simp [tdPivot]
      · simp [h], fun t => by
      by_cases h : t < 1
      · have : t = 0 := by omega
        subst this; simp [tdRhs]
      · simp [h]⟩
    (by
      rintro i ⟨a', b', d'⟩ h1 h2 ⟨ha, hb, hd⟩
      simp only at ha hb hd ⊢
      have : b' (i-1) ≠ 0 := by
        rw [hb, if_pos (by omega)]; exact hp (i-1) (by omega)
      rw [if_neg this]
      exact ⟨_, rfl, tridiagForward_step c a b d i h1 a' b' d' ha hb hd⟩)
  refine ⟨s, e, fun t ht => ?_, fun t ht => ?_⟩
  · rw [h2, if_pos ht]
  · rw [h3, if_pos ht]

/-- **C19** when no elimination pivot vanishes, the function succeeds and its answer satisfies every equation. -/
theorem zLETridiagSolve_correct (n : Nat) (hn : 0 < n) (a b c d ans : Nat → K) (hp : ∀ i, i < n → tdPivot a b c i ≠ 0) :
    ∃ x, zLETridiagSolveDST n a b c d ans = .ok x ∧ TridiagSolves n a b c d x := by
  obtain ⟨⟨sa, sb, sd⟩, e, hb, hd⟩ := tridiagForward_ok n hn a b c d (fun i hi => hp i (by omega))
  simp only at hb hd
  unfold zLETridiagSolveDST
  rw [if_neg (by omega), e]
  simp only [Res.bind]
  rw [if_neg (by rw [hb _ (by omega)]; exact hp _ (by omega))]
  refine ⟨_, rfl, ?_⟩
  -- backward sweep
  have back := forDown_inv (lo := 0) (hi := n-1) (fun i (ans : Nat → K) => set1 ans i ((sd i - c i * ans (i+1)) / sb i))
    (set1 ans (n-1) (sd (n-1) / sb (n-1)))
    (fun k x => x (n-1) = tdRhs a b c d (n-1) / tdPivot a b c (n-1) ∧
      ∀ i, k ≤ i → i < n - 1 → x i = (tdRhs a b c d i - c i * x (i+1)) / tdPivot a b c i) (Nat.zero_le _)
    ⟨by rw [set1_same, hb _ (by omega), hd _ (by omega)], by intro i h1 h2; omega⟩
    (by
      rintro k x - hk ⟨h1, h2⟩
      refine ⟨by rw [set1_ne _ _ (by omega)]; exact h1, ?_⟩
      intro i hi1 hi2
      rw [set1_ne _ _ (by omega : i + 1 ≠ k)]
      by_cases hik : i = k
      · subst hik; rw [set1_same, hb _ (by omega), hd _ (by omega)]
      · rw [set1_ne _ _ hik]; exact h2 i (by omega) hi2)
  generalize forDown 0 (n-1) (fun i (ans : Nat → K) => set1 ans i ((sd i - c i * ans (i+1)) / sb i))
    (set1 ans (n-1) (sd (n-1) / sb (n-1))) = x at back
  obtain ⟨hlast, hrec⟩ := back
  have hrow : ∀ i, i < n → tdPivot a b c i * x i + (if i + 1 < n then c i * x (i+1) else 0) = tdRhs a b c d i := by
    intro i hi
    have hpi := hp i hi
    by_cases h : i + 1 < n
    · rw [if_pos h, hrec i (Nat.zero_le _) (by omega)]; field_simp; ring
    · have : i = n - 1 := by omega
      subst this
      rw [if_neg h, hlast]; field_simp; ring
  intro i hi
  have hi' := hrow i hi
  rcases i with _ | i
  · simpa [tdPivot, tdRhs] using hi'
  · have h1 := hrow i (by omega)
    rw [if_pos hi] at h1
    rw [if_neg (by omega), Nat.add_sub_cancel]
    rw [tdPivot, tdRhs, ← h1] at hi'
    have hpi := hp i (by omega)
    have e1 : (tdPivot a b c i * x i + c i * x (i+1)) / tdPivot a b c i * a (i+1) = a (i+1) * x i + c i / tdPivot a b c i * a (i+1) * x (i+1) := by
      field_simp
    rw [e1] at hi'
    linear_combination hi'

/-- A zero pivot before the last: failure is reported. -/
theorem zLETridiagSolve_fail (n k : Nat) (hk : k + 1 < n) (a b c d ans : Nat → K) (hz : tdPivot a b c k = 0)
    (hp : ∀ i, i < k → tdPivot a b c i ≠ 0) : zLETridiagSolveDST n a b c d ans = .fail := by
  unfold zLETridiagSolveDST
  rw [if_neg (by omega)]
  have e : tridiagForward n c a b d = .fail := by
    obtain ⟨⟨sa, sb, sd⟩, e, hb, hd⟩ := tridiagForward_ok (k+1) (by omega) a b c d (fun i hi => hp i (by omega))
    unfold tridiagForward at e ⊢
    have hs := forUpM_split (lo := 1) (mid := k+1) (hi := n) (by omega) (by omega) (fun i (st : (Nat → K) × (Nat → K) × (Nat → K)) =>
      let (a, b, d) := st
      if b (i-1) = 0 then .fail
      else
        let b := set1 b i (b i - c (i-1) / b (i-1) * a i)
        let d := set1 d i (d i - d (i-1) / b (i-1) * a i)
        .ok (set1 a i 0, b, d)) (a, b, d)
    rw [hs, e]
    simp only [Res.bind]
    rw [forUpM_cons hk]
    simp only [Nat.add_sub_cancel]
    rw [if_pos ((hb k (by omega)).trans hz)]
    rfl
  rw [e]
  rfl

/-- **C19 gap.** A zero last pivot is not detected: the answer is computed by a division by zero. -/
theorem zLETridiagSolve_last_pivot_unchecked (n : Nat) (a b c d ans : Nat → K) (hz : tdPivot a b c n = 0)
    (hp : ∀ i, i < n → tdPivot a b c i ≠ 0) : zLETridiagSolveDST (n+1) a b c d ans = .ub := by
  obtain ⟨⟨sa, sb, sd⟩, e, hb, hd⟩ := tridiagForward_ok (n+1) (by omega) a b c d (fun i hi => hp i (by omega))
  simp only at hb
  unfold zLETridiagSolveDST
  rw [if_neg (by omega), e]
  simp only [Res.bind]
  rw [if_pos (by rw [Nat.add_sub_cancel, hb _ (by omega)]; exact hz)]

/-- Strict diagonal dominance keeps every pivot away from zero. -/
theorem tdPivot_dominant (a b c : Nat → K) (n : Nat)
    (hdom : ∀ i, i < n → (if i = 0 then 0 else |a i|) + |c i| < |b i|) : ∀ i, i < n → |c i| < |tdPivot a b c i| := by
  intro i
  induction i with
  | zero => intro h; have := hdom 0 h; simpa [tdPivot] using this
  | succ i ih =>
    intro h
    have h1 := ih (by omega)
    have h2 := hdom (i+1) h
    rw [if_neg (by omega)] at h2
    rw [tdPivot]
    have hp : 0 < |tdPivot a b c i| := lt_of_le_of_lt (abs_nonneg _) h1
    have h3 : |c i / tdPivot a b c i * a (i+1)| ≤ |a (i+1)| := by
      rw [abs_mul, abs_div]
      have : |c i| / |tdPivot a b c i| ≤ 1 := (div_le_one hp).2 h1.le
      calc _ ≤ 1 * |a (i+1)| := mul_le_mul_of_nonneg_right this (abs_nonneg _)
        _ = _ := one_mul _
    have h4 := abs_sub_abs_le_abs_sub (b (i+1)) (c i / tdPivot a b c i * a (i+1))
    linarith

/-- **C19** corollary: every strictly diagonally dominant tridiagonal system is solved. -/
theorem zLETridiagSolve_dominant (n : Nat) (hn : 0 < n) (a b c d ans : Nat → K)
    (hdom : ∀ i, i < n → (if i = 0 then 0 else |a i|) + |c i| < |b i|) :
    ∃ x, zLETridiagSolveDST n a b c d ans = .ok x ∧ TridiagSolves n a b c d x :=
  zLETridiagSolve_correct n hn a b c d ans fun i hi h0 => by
    have := tdPivot_dominant a b c n hdom i hi
    rw [h0, abs_zero] at this
    exact absurd this (not_lt.2 (abs_nonneg _))

/-- The dominance hypothesis is met by the matrices `tridiag(1,4,1)` of any size; the other two cases also occur. -/
example (n : Nat) : ∀ i, i < n → (if i = 0 then 0 else |(1:ℚ)|) + |1| < |4| := by
  intro i _; split <;> norm_num
example : tdPivot (fun _ => (1:ℚ)) (fun _ => 1) (fun _ => 1) 1 = 0 ∧ tdPivot (fun _ => (1:ℚ)) (fun _ => 1) (fun _ => 1) 0 ≠ 0 := by
  norm_num [tdPivot]

end Zm.LE
