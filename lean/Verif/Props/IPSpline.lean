import Verif.Props.IPSeg
import Verif.Props.Tridiag
import Mathlib.Analysis.Calculus.Deriv.Comp
import Mathlib.Tactic.LinearCombination
import Mathlib.Tactic.FieldSimp
import Mathlib.Tactic.Positivity

/-! # Cubic spline interpolation (C32) -/

set_option linter.unusedSectionVars false

namespace Zm.IP
open Zm LE

section field
variable {K : Type*} [Field K] [LinearOrder K] [IsStrictOrderedRing K]

/-! ## The equation built for one component -/

theorem splRows_spec (n : Nat) (dt x : Nat → K) (w : Wk K) :
    (∀ j, (splRows n dt x w).a j = if 1 ≤ j ∧ j + 1 < n then 1 / dt j else w.a j) ∧
    (∀ j, (splRows n dt x w).b j = if 1 ≤ j ∧ j + 1 < n then 2 * (1 / dt j + 1 / dt (j+1)) else w.b j) ∧
    (∀ j, (splRows n dt x w).c j = if 1 ≤ j ∧ j + 1 < n then 1 / dt (j+1) else w.c j) ∧
    (∀ j, (splRows n dt x w).d j = if 1 ≤ j ∧ j + 1 < n then
      -x (j-1) * (3 / (dt j * dt j)) + x j * (3 / (dt j * dt j) - 3 / (dt (j+1) * dt (j+1))) + x (j+1) * (3 / (dt (j+1) * dt (j+1)))
      else w.d j) := by
  by_cases hn : n - 1 ≤ 1
  · unfold splRows
    rw [forUp_of_le hn]
    refine ⟨?_, ?_, ?_, ?_⟩ <;> intro j <;> rw [if_neg (by omega)]
  · unfold splRows
    have h := forUp_inv (lo := 1) (hi := n-1) (fun j w =>
      let r1 := 1 / dt j
      let r2 := 1 / dt (j+1)
      let a := set1 w.a j r1
      let b := set1 w.b j (2 * (r1 + r2))
      let c := set1 w.c j r2
      let r1 := 3 / (dt j * dt j)
      let r2 := 3 / (dt (j+1) * dt (j+1))
      ({ a := a, b := b, c := c, d := set1 w.d j (-x (j-1) * r1 + x j * (r1 - r2) + x (j+1) * r2) } : Wk K)) w
      (P := fun k s =>
        (∀ j, s.a j = if 1 ≤ j ∧ j < k then 1 / dt j else w.a j) ∧
        (∀ j, s.b j = if 1 ≤ j ∧ j < k then 2 * (1 / dt j + 1 / dt (j+1)) else w.b j) ∧
        (∀ j, s.c j = if 1 ≤ j ∧ j < k then 1 / dt (j+1) else w.c j) ∧
        (∀ j, s.d j = if 1 ≤ j ∧ j < k then
          -x (j-1) * (3 / (dt j * dt j)) + x j * (3 / (dt j * dt j) - 3 / (dt (j+1) * dt (j+1))) + x (j+1) * (3 / (dt (j+1) * dt (j+1)))
          else w.d j))
      (by omega)
      (by refine ⟨?_, ?_, ?_, ?_⟩ <;> intro j <;> rw [if_neg (by omega)])
      (by
        intro k s hk1 hk2 ⟨ha, hb, hc, hd⟩
        refine ⟨?_, ?_, ?_, ?_⟩ <;> intro j <;> simp only <;> by_cases hj : j = k
        all_goals first
          | (subst hj; rw [set1_same, if_pos (by omega)])
          | (rw [set1_ne _ _ hj]
             first | rw [ha] | rw [hb] | rw [hc] | rw [hd]
             by_cases h : 1 ≤ j ∧ j < k
             · rw [if_pos h, if_pos (by omega)]
             · rw [if_neg h, if_neg (by omega)]))
    obtain ⟨ha, hb, hc, hd⟩ := h
    refine ⟨fun j => ?_, fun j => ?_, fun j => ?_, fun j => ?_⟩
    · rw [ha]; congr 1; simp only [eq_iff_iff]; omega
    · rw [hb]; congr 1; simp only [eq_iff_iff]; omega
    · rw [hc]; congr 1; simp only [eq_iff_iff]; omega
    · rw [hd]; congr 1; simp only [eq_iff_iff]; omega

/-- The equations the section velocities have to satisfy: continuity of the second derivative at interior knots, and
the two edge conditions as the code states them. -/
structure SplineEqs (n : Nat) (dt x : Nat → K) (e1 e2 : Edge K) (v : Nat → K) : Prop where
  interior : ∀ i, i + 2 < n → 1 / dt (i+1) * v i + 2 * (1 / dt (i+1) + 1 / dt (i+2)) * v (i+1) + 1 / dt (i+2) * v (i+2) =
    -x i * (3 / (dt (i+1) * dt (i+1))) + x (i+1) * (3 / (dt (i+1) * dt (i+1)) - 3 / (dt (i+2) * dt (i+2)))
      + x (i+2) * (3 / (dt (i+2) * dt (i+2)))
  fix1 : ∀ u, e1 = .fix u → v 0 = u
  free1 : e1 = .free → 2 * v 0 + v 1 = 3 * (x 1 - x 0) / dt 1
  fix2 : ∀ u, e2 = .fix u → v (n-1) = u
  free2 : e2 = .free → 2 * v (n-2) + v (n-1) = 3 * (x (n-1) - x (n-2)) / dt (n-1)

/-- The work space left by a component (or freshly allocated) is fit for the next one. -/
def WkOk (n : Nat) (e1 e2 : Edge K) (w : Wk K) : Prop :=
  ((∃ u, e1 = .fix u) → w.c 0 = 0) ∧ ((∃ u, e2 = .fix u) → w.a (n-1) = 0)

theorem tridiagForward_a (n : Nat) (c a b d : Nat → K) (s : (Nat → K) × (Nat → K) × (Nat → K)) (hs : tridiagForward n c a b d = .ok s)
    (hn : 1 ≤ n) : ∀ t, 1 ≤ t → t < n → s.1 t = 0 := by
  unfold tridiagForward at hs
  induction n generalizing s with
  | zero => omega
  | succ n ih =>
    by_cases h1 : n = 0
    · subst h1; intro t h1 h2; omega
    · rw [forUpM_split (mid := n) (by omega) (by omega)] at hs
      generalize hg : forUpM 1 n (fun i (st : (Nat → K) × (Nat → K) × (Nat → K)) =>
        let (a, b, d) := st
        if b (i-1) = 0 then .fail
        else
          let b := set1 b i (b i - c (i-1) / b (i-1) * a i)
          let d := set1 d i (d i - d (i-1) / b (i-1) * a i)
          .ok (set1 a i 0, b, d)) (a, b, d) = g at hs ih
      cases g with
      | fail => simp [Res.bind] at hs
      | ub => simp [Res.bind] at hs
      | ok g =>
        obtain ⟨ga, gb, gd⟩ := g
        simp only [Res.bind] at hs
        rw [forUpM_cons (by omega), ] at hs
        simp only at hs
        split at hs
        · simp [Res.bind] at hs
        · simp only [Res.bind] at hs
          rw [forUpM_nil (le_refl _)] at hs
          injection hs with hs
          subst hs
          intro t h1 h2
          simp only
          by_cases ht : t = n
          · subst ht; rw [set1_same]
          · rw [set1_ne _ _ ht]; exact ih _ rfl (by omega) t h1 (by omega)

theorem splComp_ok (n : Nat) (hn : 2 ≤ n) (dt x : Nat → K) (hdt : ∀ i, 0 < i → i < n → 0 < dt i) (e1 e2 : Edge K) (w : Wk K) (v : Nat → K)
    (hw : WkOk n e1 e2 w) (hne : ¬ (n = 2 ∧ e1 = .free ∧ e2 = .free)) :
    ∃ v' w', splComp n dt x e1 e2 w v = .ok (v', w') ∧ SplineEqs n dt x e1 e2 v' ∧
      ((∃ u, e1 = .fix u) → w'.c 0 = 0) ∧ w'.a (n-1) = 0 := by
  obtain ⟨ra, rb, rc, rd⟩ := splRows_spec n dt x w
  unfold splComp
  simp only
  generalize hw1 : splRows n dt x w = w1 at *
  generalize hw2 : edgeEnd n dt x e2 (edgeBegin dt x e1 w1) = w2
  -- entries of the final equation
  have A : ∀ j, 1 ≤ j → j + 1 < n → w2.a j = 1 / dt j := by
    intro j h1 h2
    rw [← hw2]
    cases e1 <;> cases e2 <;> simp only [edgeEnd, edgeBegin] <;> (try rw [set1_ne _ _ (show j ≠ n - 1 by omega)]) <;>
      rw [ra, if_pos ⟨h1, h2⟩]
  have B : ∀ j, 1 ≤ j → j + 1 < n → w2.b j = 2 * (1 / dt j + 1 / dt (j+1)) := by
    intro j h1 h2
    rw [← hw2]
    cases e1 <;> cases e2 <;> simp only [edgeEnd, edgeBegin] <;> rw [set1_ne _ _ (show j ≠ n - 1 by omega)] <;>
      rw [set1_ne _ _ (show j ≠ 0 by omega), rb, if_pos ⟨h1, h2⟩]
  have C : ∀ j, 1 ≤ j → j + 1 < n → w2.c j = 1 / dt (j+1) := by
    intro j h1 h2
    rw [← hw2]
    cases e1 <;> cases e2 <;> simp only [edgeEnd, edgeBegin] <;> (try rw [set1_ne _ _ (show j ≠ 0 by omega)]) <;>
      rw [rc, if_pos ⟨h1, h2⟩]
  have D : ∀ j, 1 ≤ j → j + 1 < n → w2.d j = -x (j-1) * (3 / (dt j * dt j)) + x j * (3 / (dt j * dt j) - 3 / (dt (j+1) * dt (j+1)))
      + x (j+1) * (3 / (dt (j+1) * dt (j+1))) := by
    intro j h1 h2
    rw [← hw2]
    cases e1 <;> cases e2 <;> simp only [edgeEnd, edgeBegin] <;> rw [set1_ne _ _ (show j ≠ n - 1 by omega)] <;>
      rw [set1_ne _ _ (show j ≠ 0 by omega), rd, if_pos ⟨h1, h2⟩]
  have F1 : ∀ u, e1 = .fix u → w2.b 0 = 1 ∧ w2.c 0 = 0 ∧ w2.d 0 = u := by
    intro u hu
    subst hu
    rw [← hw2]
    refine ⟨?_, ?_, ?_⟩
    · cases e2 <;> simp only [edgeEnd, edgeBegin] <;> rw [set1_ne _ _ (show 0 ≠ n - 1 by omega), set1_same]
    · cases e2 <;> simp only [edgeEnd, edgeBegin] <;> rw [rc, if_neg (by omega)] <;> exact hw.1 ⟨u, rfl⟩
    · cases e2 <;> simp only [edgeEnd, edgeBegin] <;> rw [set1_ne _ _ (show 0 ≠ n - 1 by omega), set1_same]
  have G1 : e1 = .free → w2.b 0 = 2 * (1 / dt 1) ∧ w2.c 0 = 1 / dt 1 ∧ w2.d 0 = 3 * (x 1 - x 0) / (dt 1 * dt 1) := by
    intro hu
    subst hu
    rw [← hw2]
    refine ⟨?_, ?_, ?_⟩
    · cases e2 <;> simp only [edgeEnd, edgeBegin] <;> rw [set1_ne _ _ (show 0 ≠ n - 1 by omega), set1_same]
    · cases e2 <;> simp only [edgeEnd, edgeBegin] <;> rw [set1_same]
    · cases e2 <;> simp only [edgeEnd, edgeBegin] <;> rw [set1_ne _ _ (show 0 ≠ n - 1 by omega), set1_same]
  have F2 : ∀ u, e2 = .fix u → w2.b (n-1) = 1 ∧ w2.a (n-1) = 0 ∧ w2.d (n-1) = u := by
    intro u hu
    subst hu
    rw [← hw2]
    refine ⟨?_, ?_, ?_⟩
    · simp only [edgeEnd, set1_same]
    · cases e1 <;> simp only [edgeEnd, edgeBegin] <;> rw [ra, if_neg (by omega)] <;> exact hw.2 ⟨u, rfl⟩
    · simp only [edgeEnd, set1_same]
  have G2 : e2 = .free → w2.b (n-1) = 1 / dt (n-1) ∧ w2.a (n-1) = 2 * (1 / dt (n-1)) ∧
      w2.d (n-1) = 3 * (x (n-1) - x (n-2)) / (dt (n-1) * dt (n-1)) := by
    intro hu
    subst hu
    rw [← hw2]
    refine ⟨?_, ?_, ?_⟩ <;> simp only [edgeEnd, set1_same]
  -- pivots
  have P : ∀ i, i + 1 < n → 0 ≤ w2.c i ∧ 0 < tdPivot w2.a w2.b w2.c i ∧ 2 * w2.c i ≤ tdPivot w2.a w2.b w2.c i ∧
      ((1 ≤ i ∨ e1 ≠ .free) → 2 * w2.c i < tdPivot w2.a w2.b w2.c i) := by
    intro i
    induction i with
    | zero =>
      intro h
      simp only [tdPivot]
      cases he : e1 with
      | fix u =>
        obtain ⟨h1, h2, -⟩ := F1 u he
        rw [h1, h2]; norm_num
      | free =>
        obtain ⟨h1, h2, -⟩ := G1 he
        have := hdt 1 (by omega) (by omega)
        have : 0 < 1 / dt 1 := by positivity
        rw [h1, h2]
        exact ⟨this.le, by linarith, le_refl _, by simp⟩
    | succ i ih =>
      intro h
      obtain ⟨c0, p0, p1, -⟩ := ih (by omega)
      simp only [tdPivot]
      rw [A _ (by omega) h, B _ (by omega) h, C _ (by omega) h]
      have q1 : 0 < 1 / dt (i+1) := by have := hdt (i+1) (by omega) (by omega); positivity
      have q2 : 0 < 1 / dt (i+1+1) := by have := hdt (i+1+1) (by omega) (by omega); positivity
      have q3 : w2.c i / tdPivot w2.a w2.b w2.c i ≤ 1 / 2 := by rw [div_le_div_iff₀ p0 (by norm_num)]; linarith
      refine ⟨q2.le, ?_, ?_, fun _ => ?_⟩ <;> nlinarith
  have Plast : tdPivot w2.a w2.b w2.c (n-1) ≠ 0 := by
    obtain ⟨m, rfl⟩ : ∃ m, n = m + 2 := ⟨n - 2, by omega⟩
    simp only [show m + 2 - 1 = m + 1 by omega] at *
    simp only [tdPivot]
    cases he : e2 with
    | fix u =>
      obtain ⟨h1, h2, -⟩ := F2 u he
      rw [h1, h2]; norm_num
    | free =>
      obtain ⟨h1, h2, -⟩ := G2 he
      obtain ⟨c0, p0, -, p2⟩ := P m (by omega)
      have p2 := p2 (by
        by_contra hc
        push Not at hc
        exact hne ⟨by omega, hc.2, he⟩)
      rw [h1, h2]
      have q1 : 0 < 1 / dt (m+1) := by have := hdt (m+1) (by omega) (by omega); positivity
      have q3 : w2.c m / tdPivot w2.a w2.b w2.c m < 1 / 2 := by rw [div_lt_div_iff₀ p0 (by norm_num)]; linarith
      have : 0 < 1 / dt (m+1) - w2.c m / tdPivot w2.a w2.b w2.c m * (2 * (1 / dt (m+1))) := by nlinarith
      exact this.ne'
  have Pall : ∀ i, i < n → tdPivot w2.a w2.b w2.c i ≠ 0 := by
    intro i hi
    rcases Nat.lt_or_ge (i+1) n with h | h
    · exact (P i h).2.1.ne'
    · rw [show i = n - 1 by omega]; exact Plast
  obtain ⟨ans, e, hans⟩ := zLETridiagSolve_correct n (by omega) w2.a w2.b w2.c w2.d v Pall
  obtain ⟨st, e', -⟩ := tridiagForward_ok n (by omega) w2.a w2.b w2.c w2.d (fun i hi => Pall i (by omega))
  rw [e, e']
  obtain ⟨sa, sb, sd⟩ := st
  simp only [Res.bind]
  refine ⟨_, _, rfl, ?_, ?_, ?_⟩
  · refine ⟨?_, ?_, ?_, ?_, ?_⟩
    · intro i hi
      have := hans (i+1) (by omega)
      rw [if_neg (by omega), if_pos (by omega), A _ (by omega) (by omega), B _ (by omega) (by omega), C _ (by omega) (by omega),
        D _ (by omega) (by omega)] at this
      exact this
    · intro u hu
      have := hans 0 (by omega)
      obtain ⟨h1, h2, h3⟩ := F1 u hu
      rw [if_pos rfl, if_pos (by omega), h1, h2, h3] at this
      linarith
    · intro hu
      have := hans 0 (by omega)
      obtain ⟨h1, h2, h3⟩ := G1 hu
      rw [if_pos rfl, if_pos (by omega), h1, h2, h3] at this
      have hd := (hdt 1 (by omega) (by omega)).ne'
      field_simp at this ⊢
      linarith
    · intro u hu
      have := hans (n-1) (by omega)
      obtain ⟨h1, h2, h3⟩ := F2 u hu
      rw [if_neg (by omega), if_neg (by omega), h1, h2, h3] at this
      linarith
    · intro hu
      have := hans (n-1) (by omega)
      obtain ⟨h1, h2, h3⟩ := G2 hu
      rw [if_neg (by omega), if_neg (by omega), h1, h2, h3] at this
      have hd := (hdt (n-1) (by omega) (by omega)).ne'
      rw [show n - 1 - 1 = n - 2 by omega] at this
      field_simp at this ⊢
      linarith
  · rintro ⟨u, hu⟩
    exact (F1 u hu).2.1
  · exact tridiagForward_a n _ _ _ _ _ e' (by omega) (n-1) (by omega) (by omega)

/-- Creation succeeds and yields section velocities that satisfy the equations, for every component.  The one exception is
excluded: two knots with both edges free. -/
theorem splCreate_ok (n dim : Nat) (hn : 2 ≤ n) (dt : Nat → K) (x : Nat → Nat → K) (hdt : ∀ i, 0 < i → i < n → 0 < dt i)
    (e1 e2 : Option (Nat → K)) (hne : ¬ (n = 2 ∧ e1 = none ∧ e2 = none)) :
    ∃ va, splCreate n dim dt x e1 e2 = .ok va ∧ ∀ c, c < dim → SplineEqs n dt (x c) (edgeOf e1 c) (edgeOf e2 c) (va c) := by
  unfold splCreate
  obtain ⟨s, e, h⟩ := forUpM_ok (lo := 0) (hi := dim) (fun i (s : (Nat → Nat → K) × (Nat → K) × Wk K) =>
    (splComp n dt (x i) (edgeOf e1 i) (edgeOf e2 i) s.2.2 s.2.1).bind fun (v, w) => .ok (set1 s.1 i v, v, w))
    (fun _ _ => 0, fun _ => 0, { a := fun _ => 0, b := fun _ => 0, c := fun _ => 0, d := fun _ => 0 })
    (P := fun k s => (∀ c, c < k → SplineEqs n dt (x c) (edgeOf e1 c) (edgeOf e2 c) (s.1 c)) ∧ (e1 ≠ none → s.2.2.c 0 = 0) ∧ s.2.2.a (n-1) = 0)
    (by omega) ⟨by intro c hc; omega, by simp, by simp⟩
    (by
      intro k s _ hk ⟨h1, h2, h3⟩
      obtain ⟨v', w', e, g1, g2, g3⟩ := splComp_ok n hn dt (x k) hdt (edgeOf e1 k) (edgeOf e2 k) s.2.2 s.2.1
        ⟨by rintro ⟨u, hu⟩; apply h2; intro hnone; rw [hnone] at hu; simp [edgeOf] at hu, fun _ => h3⟩
        (by
          rintro ⟨a, b, c⟩
          apply hne
          refine ⟨a, ?_, ?_⟩
          · cases e1 with
            | none => rfl
            | some _ => simp [edgeOf] at b
          · cases e2 with
            | none => rfl
            | some _ => simp [edgeOf] at c)
      simp only [e, Res.bind]
      refine ⟨_, rfl, ?_, ?_, g3⟩
      · intro c hc
        simp only
        by_cases hck : c = k
        · subst hck; rw [set1_same]; exact g1
        · rw [set1_ne _ _ hck]; exact h1 c (by omega)
      · intro hne
        apply g2
        cases e1 with
        | none => exact absurd rfl hne
        | some v => exact ⟨v k, rfl⟩)
  rw [e]
  exact ⟨_, rfl, h.1⟩

/-- **C32, violated.** Two knots with both edges free: the equation the code builds is singular and the solver divides
by zero. -/
theorem splCreate_two_free (dim : Nat) (hd : 0 < dim) (dt : Nat → K) (x : Nat → Nat → K) (h1 : 0 < dt 1) :
    splCreate 2 dim dt x none none = .ub := by
  unfold splCreate
  rw [forUpM_cons hd]
  have : splComp 2 dt (x 0) (edgeOf none 0) (edgeOf none 0) { a := fun _ => 0, b := fun _ => 0, c := fun _ => 0, d := fun _ => 0 } (fun _ => 0) = .ub := by
    unfold splComp
    simp only [edgeOf]
    have hr : (splRows 2 dt (x 0) { a := fun _ => (0:K), b := fun _ => 0, c := fun _ => 0, d := fun _ => 0 }) = { a := fun _ => 0, b := fun _ => 0, c := fun _ => 0, d := fun _ => 0 } := by
      unfold splRows; rw [forUp_of_le (by omega)]
    rw [hr]
    rw [zLETridiagSolve_last_pivot_unchecked 1]
    · rfl
    · simp [tdPivot, edgeEnd, edgeBegin, set1]
      field_simp
      ring
    · intro i hi
      have : i = 0 := by omega
      subst this
      simp [tdPivot, edgeEnd, edgeBegin, set1, h1.ne']
  simp only [this, Res.bind]

/-! ## Values at the knots -/

theorem splSegVec_left (dt x va : Nat → K) (i : Nat) (h : dt (i+1) ≠ 0) : splSegVec dt (knotTime dt) x va i (knotTime dt i) = x i := by
  simp only [splSegVec, ferg1, ferg2, knotTime]; field_simp; ring
theorem splSegVec_right (dt x va : Nat → K) (i : Nat) (h : dt (i+1) ≠ 0) : splSegVec dt (knotTime dt) x va i (knotTime dt (i+1)) = x (i+1) := by
  simp only [splSegVec, ferg1, ferg2, knotTime]; field_simp; ring
theorem splSegVel_left (dt x va : Nat → K) (i : Nat) (h : dt (i+1) ≠ 0) : splSegVel dt (knotTime dt) x va i (knotTime dt i) = va i := by
  simp only [splSegVel, fergVel1, fergVel2, knotTime]; field_simp; ring
theorem splSegVel_right (dt x va : Nat → K) (i : Nat) (h : dt (i+1) ≠ 0) : splSegVel dt (knotTime dt) x va i (knotTime dt (i+1)) = va (i+1) := by
  simp only [splSegVel, fergVel1, fergVel2, knotTime]; field_simp; ring
theorem splSegAcc_left (dt x va : Nat → K) (i : Nat) (h : dt (i+1) ≠ 0) :
    splSegAcc dt (knotTime dt) x va i (knotTime dt i) = 6 * (x (i+1) - x i) / (dt (i+1) * dt (i+1)) - (4 * va i + 2 * va (i+1)) / dt (i+1) := by
  simp only [splSegAcc, fergAcc1, fergAcc2, knotTime]; field_simp; ring
theorem splSegAcc_right (dt x va : Nat → K) (i : Nat) (h : dt (i+1) ≠ 0) :
    splSegAcc dt (knotTime dt) x va i (knotTime dt (i+1)) = (2 * va i + 4 * va (i+1)) / dt (i+1) - 6 * (x (i+1) - x i) / (dt (i+1) * dt (i+1)) := by
  simp only [splSegAcc, fergAcc1, fergAcc2, knotTime]; field_simp; ring

/-- Any piecewise cubic of this form passes through the knots with the section velocities, whatever these are. -/
theorem splVec_knot (n : Nat) (hn : 2 ≤ n) (dt x va : Nat → K) (hdt : ∀ i, 0 < i → i < n → 0 < dt i) (i : Nat) (hi : i < n) :
    splVec n dt (knotTime dt) x va (knotTime dt i) = x i ∧ splVel n dt (knotTime dt) x va (knotTime dt i) = va i := by
  unfold splVec splVel
  rw [zIPDataSeg_knot n hn _ (fun i j h1 h2 => knotTime_lt hdt h1 h2) i hi]
  rcases Nat.lt_or_ge (i+1) n with h | h
  · rw [Nat.min_eq_left (by omega)]
    have hd := (hdt (i+1) (by omega) h).ne'
    exact ⟨splSegVec_left _ _ _ _ hd, splSegVel_left _ _ _ _ hd⟩
  · rw [Nat.min_eq_right (by omega)]
    have e : i = n - 2 + 1 := by omega
    subst e
    have hd := (hdt (n-2+1) (by omega) hi).ne'
    exact ⟨splSegVec_right _ _ _ _ hd, splSegVel_right _ _ _ _ hd⟩

/-- The coefficients reported by `zIPSplineCoeff` are those of the cubic of the section in `t - T i`. -/
theorem splCoeff_spec (dt x va : Nat → K) (i : Nat) (h : dt (i+1) ≠ 0) (t : K) :
    let (a, b, c, d) := splCoeff dt x va i
    splSegVec dt (knotTime dt) x va i (knotTime dt i + t) = ((a * t + b) * t + c) * t + d := by
  simp only [splCoeff, splSegVec, ferg1, ferg2, knotTime]; field_simp; ring

/-- The Ferguson curve starts at `x0` with velocity coefficient `v0` and ends at `x1`: it is the same cubic as a section. -/
theorem zFergusonVal_spec (dt x va : Nat → K) (t : K) (h : dt 1 ≠ 0) :
    zFergusonVal t (dt 1) (x 0) (va 0) (x 1) (va 1) = splSegVec dt (knotTime dt) x va 0 (knotTime dt 0 + t) := by
  simp only [zFergusonVal, splSegVec, ferg1, ferg2, knotTime]; field_simp; ring

end field

/-! ## Differentiability -/

theorem hasDerivAt_lin1 (T1 d t : ℝ) : HasDerivAt (fun t => (T1 - t) / d) (-1 / d) t := by
  have := ((hasDerivAt_id t).const_sub T1).div_const d
  simpa using this
theorem hasDerivAt_lin2 (T0 d t : ℝ) : HasDerivAt (fun t => (t - T0) / d) (1 / d) t := by
  have := ((hasDerivAt_id t).sub_const T0).div_const d
  simpa using this

theorem hasDerivAt_ferg1 (t : ℝ) : HasDerivAt ferg1 (fergVel1 t) t := by
  have := ((((hasDerivAt_id t).const_mul 2).const_sub 3).mul (hasDerivAt_id t)).mul (hasDerivAt_id t)
  refine this.congr_deriv ?_
  simp only [id, Pi.mul_apply, fergVel1]; ring
theorem hasDerivAt_ferg2 (t : ℝ) : HasDerivAt ferg2 (fergVel2 t) t := by
  have := ((((hasDerivAt_id t).sub_const 1)).mul (hasDerivAt_id t)).mul (hasDerivAt_id t)
  refine this.congr_deriv ?_
  simp only [id, Pi.mul_apply, fergVel2]; ring
theorem hasDerivAt_fergVel1 (t : ℝ) : HasDerivAt fergVel1 (fergAcc1 t) t := by
  have := (((hasDerivAt_id t).const_mul 6)).mul ((hasDerivAt_id t).const_sub 1)
  refine this.congr_deriv ?_
  simp only [id, Pi.mul_apply, fergAcc1]; ring
theorem hasDerivAt_fergVel2 (t : ℝ) : HasDerivAt fergVel2 (fergAcc2 t) t := by
  have := ((((hasDerivAt_id t).const_mul 3).sub_const 2)).mul (hasDerivAt_id t)
  refine this.congr_deriv ?_
  simp only [id, Pi.mul_apply, fergAcc2]; ring

theorem splSegVec_hasDerivAt (dt T x va : Nat → ℝ) (i : Nat) (h : dt (i+1) ≠ 0) (t : ℝ) :
    HasDerivAt (splSegVec dt T x va i) (splSegVel dt T x va i t) t := by
  have a1 := (hasDerivAt_ferg1 _).comp t (hasDerivAt_lin1 (T (i+1)) (dt (i+1)) t)
  have a2 := (hasDerivAt_ferg1 _).comp t (hasDerivAt_lin2 (T i) (dt (i+1)) t)
  have b1 := (hasDerivAt_ferg2 _).comp t (hasDerivAt_lin1 (T (i+1)) (dt (i+1)) t)
  have b2 := (hasDerivAt_ferg2 _).comp t (hasDerivAt_lin2 (T i) (dt (i+1)) t)
  have := (((a1.mul_const (x i)).const_add 0).add (a2.mul_const (x (i+1)))).add ((b1.const_mul (-dt (i+1))).mul_const (va i)) |>.add
    ((b2.const_mul (dt (i+1))).mul_const (va (i+1)))
  refine this.congr_deriv ?_
  simp only [splSegVel]
  field_simp
  ring

theorem splSegVel_hasDerivAt (dt T x va : Nat → ℝ) (i : Nat) (h : dt (i+1) ≠ 0) (t : ℝ) :
    HasDerivAt (splSegVel dt T x va i) (splSegAcc dt T x va i t) t := by
  have a1 := (hasDerivAt_fergVel1 _).comp t (hasDerivAt_lin1 (T (i+1)) (dt (i+1)) t)
  have a2 := (hasDerivAt_fergVel1 _).comp t (hasDerivAt_lin2 (T i) (dt (i+1)) t)
  have b1 := (hasDerivAt_fergVel2 _).comp t (hasDerivAt_lin1 (T (i+1)) (dt (i+1)) t)
  have b2 := (hasDerivAt_fergVel2 _).comp t (hasDerivAt_lin2 (T i) (dt (i+1)) t)
  have := (((((a1.neg).div_const (dt (i+1))).mul_const (x i)).const_add 0).add ((a2.div_const (dt (i+1))).mul_const (x (i+1)))).add
    (b1.mul_const (va i)) |>.add (b2.mul_const (va (i+1)))
  refine this.congr_deriv ?_
  simp only [splSegAcc]
  field_simp
  ring

/-- For any section velocities the piecewise cubic is continuously differentiable: its derivative is the velocity the
interpolator returns, at every time (spline and PCHIP). -/
theorem splVec_hasDerivAt (n : Nat) (hn : 2 ≤ n) (dt x va : Nat → ℝ) (hdt : ∀ i, 0 < i → i < n → 0 < dt i) (t : ℝ) :
    HasDerivAt (splVec n dt (knotTime dt) x va) (splVel n dt (knotTime dt) x va t) t :=
  glue_hasDerivAt n hn (knotTime dt) (fun _ _ h1 h2 => knotTime_lt hdt h1 h2) (splSegVec dt (knotTime dt) x va)
    (splSegVel dt (knotTime dt) x va) (fun i t hi => splSegVec_hasDerivAt _ _ _ _ _ (hdt _ (by omega) hi).ne' t)
    (fun i hi => by rw [splSegVec_right _ _ _ _ (hdt _ (by omega) (by omega)).ne', splSegVec_left _ _ _ _ (hdt _ (by omega) (by omega)).ne'])
    (fun i hi => by rw [splSegVel_right _ _ _ _ (hdt _ (by omega) (by omega)).ne', splSegVel_left _ _ _ _ (hdt _ (by omega) (by omega)).ne']) t

theorem splVel_hasDerivAt (n : Nat) (hn : 2 ≤ n) (dt x va : Nat → ℝ) (hdt : ∀ i, 0 < i → i < n → 0 < dt i) (e1 e2 : Edge ℝ)
    (hva : SplineEqs n dt x e1 e2 va) (t : ℝ) :
    HasDerivAt (splVel n dt (knotTime dt) x va) (splAcc n dt (knotTime dt) x va t) t :=
  glue_hasDerivAt n hn (knotTime dt) (fun _ _ h1 h2 => knotTime_lt hdt h1 h2) (splSegVel dt (knotTime dt) x va)
    (splSegAcc dt (knotTime dt) x va) (fun i t hi => splSegVel_hasDerivAt _ _ _ _ _ (hdt _ (by omega) hi).ne' t)
    (fun i hi => by rw [splSegVel_right _ _ _ _ (hdt _ (by omega) (by omega)).ne', splSegVel_left _ _ _ _ (hdt _ (by omega) (by omega)).ne'])
    (fun i hi => by
      have d1 := (hdt (i+1) (by omega) (by omega)).ne'
      have d2 := (hdt (i+2) (by omega) (by omega)).ne'
      rw [splSegAcc_right _ _ _ _ d1, splSegAcc_left _ _ _ _ d2]
      have := hva.interior i hi
      rw [show i + 1 + 1 = i + 2 by omega]
      have e : ∀ a b : ℝ, 3 * a / b = a * (3 / b) := fun a b => by ring
      linear_combination (exp := 1) 2 * this) t

/-- **C32 (all but the free terminal edge).** For at least two knots with positive time increments and any dimension, except for
two knots with two free edges, creating a spline succeeds, and in each component the curve
passes through every knot; it is twice differentiable at every time, with the returned velocity and acceleration as its
derivatives; a fixed edge has the prescribed velocity; and a free initial edge has zero acceleration.

Missing: a free terminal edge should have zero acceleration as well.  It does not, see `spl_free_end_violated`. -/
theorem spline_partial (n dim : Nat) (hn : 2 ≤ n) (dt : Nat → ℝ) (x : Nat → Nat → ℝ) (hdt : ∀ i, 0 < i → i < n → 0 < dt i)
    (e1 e2 : Option (Nat → ℝ)) (hne : ¬ (n = 2 ∧ e1 = none ∧ e2 = none)) :
    ∃ va, splCreate n dim dt x e1 e2 = .ok va ∧ ∀ c, c < dim →
      (∀ i, i < n → splVec n dt (knotTime dt) (x c) (va c) (knotTime dt i) = x c i) ∧
      (∀ t, HasDerivAt (splVec n dt (knotTime dt) (x c) (va c)) (splVel n dt (knotTime dt) (x c) (va c) t) t) ∧
      (∀ t, HasDerivAt (splVel n dt (knotTime dt) (x c) (va c)) (splAcc n dt (knotTime dt) (x c) (va c) t) t) ∧
      (∀ v, e1 = some v → splVel n dt (knotTime dt) (x c) (va c) (knotTime dt 0) = v c) ∧
      (∀ v, e2 = some v → splVel n dt (knotTime dt) (x c) (va c) (knotTime dt (n-1)) = v c) ∧
      (e1 = none → splAcc n dt (knotTime dt) (x c) (va c) (knotTime dt 0) = 0) := by
  obtain ⟨va, e, h⟩ := splCreate_ok n dim hn dt x hdt e1 e2 hne
  refine ⟨va, e, fun c hc => ?_⟩
  have hs := h c hc
  refine ⟨fun i hi => (splVec_knot n hn dt _ _ hdt i hi).1, splVec_hasDerivAt n hn dt _ _ hdt,
    splVel_hasDerivAt n hn dt _ _ hdt _ _ hs, ?_, ?_, ?_⟩
  · intro v hv
    rw [(splVec_knot n hn dt _ _ hdt 0 (by omega)).2]
    exact hs.fix1 (v c) (by rw [hv]; rfl)
  · intro v hv
    rw [(splVec_knot n hn dt _ _ hdt (n-1) (by omega)).2]
    exact hs.fix2 (v c) (by rw [hv]; rfl)
  · intro hv
    have h1 := hs.free1 (by rw [hv]; rfl)
    unfold splAcc
    rw [zIPDataSeg_knot n hn _ (fun i j h1 h2 => knotTime_lt hdt h1 h2) 0 (by omega), Nat.min_eq_left (by omega)]
    have hd := (hdt 1 (by omega) (by omega)).ne'
    rw [splSegAcc_left _ _ _ _ hd]
    field_simp at h1 ⊢
    linarith

/-- **C32, violated.** With a free terminal edge, the acceleration that vanishes is the one at the knot *before* the last;
the terminal acceleration is `2 / dt (n-1)` times the difference of the last two section velocities. -/
theorem spl_free_end_acc (n dim : Nat) (hn : 2 ≤ n) (dt : Nat → ℝ) (x : Nat → Nat → ℝ) (hdt : ∀ i, 0 < i → i < n → 0 < dt i)
    (e1 : Option (Nat → ℝ)) (hne : ¬ (n = 2 ∧ e1 = none)) :
    ∃ va, splCreate n dim dt x e1 none = .ok va ∧ ∀ c, c < dim →
      splAcc n dt (knotTime dt) (x c) (va c) (knotTime dt (n-2)) = 0 ∧
      splAcc n dt (knotTime dt) (x c) (va c) (knotTime dt (n-1)) = 2 * (va c (n-1) - va c (n-2)) / dt (n-1) := by
  obtain ⟨va, e, h⟩ := splCreate_ok n dim hn dt x hdt e1 none (fun h => hne ⟨h.1, h.2.1⟩)
  refine ⟨va, e, fun c hc => ?_⟩
  have h2 := (h c hc).free2 rfl
  obtain ⟨m, rfl⟩ : ∃ m, n = m + 2 := ⟨n - 2, by omega⟩
  simp only [show m + 2 - 1 = m + 1 by omega, show m + 2 - 2 = m by omega] at *
  have hd := (hdt (m+1) (by omega) (by omega)).ne'
  unfold splAcc
  rw [zIPDataSeg_knot _ hn _ (fun i j h1 h2 => knotTime_lt hdt h1 h2) m (by omega),
    zIPDataSeg_knot _ hn _ (fun i j h1 h2 => knotTime_lt hdt h1 h2) (m+1) (by omega), Nat.min_eq_left (by omega), Nat.min_eq_right (by omega),
    show m + 2 - 2 = m by omega, splSegAcc_left _ _ _ _ hd, splSegAcc_right _ _ _ _ hd]
  field_simp at h2 ⊢
  constructor <;> linarith

/-- **C32, violated.** One component, two knots `0 ↦ 0`, `1 ↦ 1`, fixed initial velocity 0 and free terminal edge: the
terminal acceleration is 6, not 0. -/
theorem spl_free_end_violated :
    ∃ va, splCreate 2 1 (fun i => (i:ℝ)) (fun _ i => (i:ℝ)) (some fun _ => 0) none = .ok va ∧
      splAcc 2 (fun i => (i:ℝ)) (knotTime fun i => (i:ℝ)) (fun i => (i:ℝ)) (va 0) (knotTime (fun i => (i:ℝ)) 1) = 6 := by
  have hdt : ∀ i : Nat, 0 < i → i < 2 → (0:ℝ) < (fun i : Nat => (i:ℝ)) i := fun i h _ => by simpa using h
  obtain ⟨va, e, h⟩ := splCreate_ok 2 1 (le_refl _) (fun i => (i:ℝ)) (fun _ i => (i:ℝ)) hdt (some fun _ => 0) none (by simp)
  obtain ⟨va', e', h'⟩ := spl_free_end_acc 2 1 (le_refl _) (fun i => (i:ℝ)) (fun _ i => (i:ℝ)) hdt (some fun _ => 0) (by simp)
  rw [e] at e'
  injection e' with e'
  subst e'
  refine ⟨va, e, ?_⟩
  have h2 := (h 0 (by omega)).free2 rfl
  have h1 := (h 0 (by omega)).fix1 0 rfl
  have h3 := (h' 0 (by omega)).2
  norm_num at h1 h2 h3 ⊢
  rw [h3]; linarith

/-- **C32.** The section accessor: the reported acceleration at a knot other than the last is the acceleration of the curve
there. -/
theorem splSecAcc_interior (n : Nat) (hn : 2 ≤ n) (dt x va : Nat → ℝ) (hdt : ∀ i, 0 < i → i < n → 0 < dt i) (i : Nat) (hi : i + 1 < n) :
    splSecAcc n dt x va i = splAcc n dt (knotTime dt) x va (knotTime dt i) := by
  unfold splSecAcc splAcc
  rw [if_neg (by omega), if_neg (by omega), zIPDataSeg_knot n hn _ (fun i j h1 h2 => knotTime_lt hdt h1 h2) i (by omega), Nat.min_eq_left (by omega)]
  have hd := (hdt (i+1) (by omega) hi).ne'
  rw [splSegAcc_left _ _ _ _ hd]
  field_simp
  ring

/-- **C32, violated.** At the last knot it differs from the acceleration of the curve as soon as the combination
`va (n-2) + 2 va (n-1)` of the velocities is not zero. -/
theorem splSecAcc_last_violated (n : Nat) (hn : 2 ≤ n) (dt x va : Nat → ℝ) (hdt : ∀ i, 0 < i → i < n → 0 < dt i)
    (hv : va (n-2) + 2 * va (n-1) ≠ 0) :
    splSecAcc n dt x va (n-1) ≠ splAcc n dt (knotTime dt) x va (knotTime dt (n-1)) := by
  obtain ⟨m, rfl⟩ : ∃ m, n = m + 2 := ⟨n - 2, by omega⟩
  simp only [show m + 2 - 1 = m + 1 by omega, show m + 2 - 2 = m by omega] at *
  unfold splSecAcc splAcc
  rw [if_neg (by omega), if_pos (by omega), zIPDataSeg_knot _ hn _ (fun i j h1 h2 => knotTime_lt hdt h1 h2) (m+1) (by omega),
    Nat.min_eq_right (by omega), show m + 2 - 2 = m by omega]
  have hd := (hdt (m+1) (by omega) (by omega)).ne'
  rw [splSegAcc_right _ _ _ _ hd, show m + 1 - 1 = m by omega]
  intro h
  apply hv
  field_simp at h
  apply mul_left_cancel₀ hd
  linarith

/-- Non-vacuity: three knots, three components, mixed edges. -/
example : ∃ va, splCreate 3 3 (fun _ => (1:ℝ)) (fun c i => (c * i : ℝ)) none (some fun c => (c:ℝ)) = .ok va :=
  let ⟨va, h, _⟩ := spline_partial 3 3 (by norm_num) (fun _ => (1:ℝ)) (fun c i => (c * i : ℝ)) (fun _ _ _ => by norm_num) none (some fun c => (c:ℝ)) (by simp)
  ⟨va, h⟩

end Zm.IP
