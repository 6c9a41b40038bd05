import Verif.Model.OptDM
import Verif.Props.LEGen
import Mathlib.Tactic.LinearCombination
import Mathlib.Tactic.FieldSimp
import Mathlib.Tactic.Positivity
import Mathlib.Algebra.Order.Ring.Rat
import Mathlib.Algebra.Field.Rat

/-!
# Descent methods for unconstrained optimisation

Success of the solver, descent, the variable metric and the numerical derivatives.
-/

set_option linter.unusedSectionVars false

namespace Zm.OptDM
open Zm LE Misc Finset
variable {K : Type*} [Field K] [LinearOrder K] [IsStrictOrderedRing K]

/-! ## Specification -/

/-- Inner product of the first `n` entries. -/
def dot (n : Nat) (u v : Nat → K) : K := ∑ k ∈ range n, u k * v k

/-- A line search delivers a state that fits the point it moves to: the gradient is the one of the new point, the step
is the difference of the points, and the value is the one of the new point. -/
def StepOk (P : Prob K) (step : DM K → (Nat → K) → Option K → Res (DM K × (Nat → K) × Option K)) : Prop :=
  ∀ st var e st' var' e', step st var e = .ok (st', var', e') →
    st'.g = P.grad var' ∧ (∀ i, var' i = var i + st'.p i) ∧ e' = P.eval var' ∧ st'.h = st.h ∧ st'.d = st.d ∧
      (∀ i, st'.q i = P.grad var' i - st.g i)

/-- The constants of `zOptDMCreate` and the greatest step are sensible. -/
structure Sane (P : Prob K) : Prop where
  scale : 0 < P.scale
  ztol : 0 ≤ P.ztol
  ztol1 : P.ztol < 1
  df : 0 ≤ P.df

theorem inner_dot (n : Nat) (u v : Nat → K) : inner n u v = dot n u v := inner_spec n u v

/-! ## Line searches -/

/-- What is in the workspace is a positive step along `-d` from `var`, the point reached and its value. -/
def Cons (P : Prob K) (d var p x : Nat → K) (e : Option K) : Prop :=
  (∃ a, 0 < a ∧ p = fun i => -a * d i) ∧ (x = fun i => var i + p i) ∧ e = P.eval x

theorem stepTest_cons (P : Prob K) (hP : 0 ≤ P.ztol) (d var : Nat → K) (e0 df : K) :
    ∀ k a p x e t, (P.ztol < a ∨ Cons P d var p x e) → stepTest P d var e0 df k a p x e = .ok t →
      Cons P d var t.p t.x t.e ∧ t.good = sufficient e0 t.a df t.e := by
  intro k
  induction k with
  | zero => intro a p x e t _ h; simp [stepTest] at h
  | succ k ih =>
    intro a p x e t h0 h
    unfold stepTest at h
    by_cases ha : a > P.ztol
    · rw [if_pos ha] at h
      have hc : ∀ e', e' = P.eval (fun i => var i + -a * d i) → Cons P d var (fun i => -a * d i) (fun i => var i + -a * d i) e' :=
        fun e' he => ⟨⟨a, lt_of_le_of_lt hP ha, rfl⟩, rfl, he⟩
      dsimp only at h
      rcases he : P.eval (fun i => var i + -a * d i) with _ | ev
      · rw [he] at h
        exact ih _ _ _ _ _ (Or.inr (hc _ he.symm)) h
      · rw [he] at h
        dsimp only at h
        split at h
        · exact ih _ _ _ _ _ (Or.inr (hc _ he.symm)) h
        · cases h
          exact ⟨hc _ he.symm, rfl⟩
    · rw [if_neg ha] at h
      cases h
      rcases h0 with h0 | h0
      · exact absurd h0 ha
      · exact ⟨h0, rfl⟩

theorem absMax_nonneg (n : Nat) (v : Nat → K) : 0 ≤ absMax n v := by
  unfold absMax
  rcases Nat.lt_or_ge n 1 with h | h
  · rw [forUp_of_le (by omega)]; exact abs_nonneg _
  · refine forUp_inv (lo := 1) (hi := n) _ _ (fun _ (x : K) => 0 ≤ x) h (abs_nonneg _) ?_
    intro i t _ _ ht
    split
    · exact abs_nonneg _
    · exact ht

theorem stepTest_a (P : Prob K) (hs : 0 < P.scale) (d var : Nat → K) (e0 df : K) :
    ∀ k a p x e t, 0 < a → stepTest P d var e0 df k a p x e = .ok t → 0 < t.a ∧ t.a ≤ a := by
  intro k
  induction k with
  | zero => intro a p x e t _ h; simp [stepTest] at h
  | succ k ih =>
    intro a p x e t h0 h
    unfold stepTest at h
    by_cases ha : a > P.ztol
    · rw [if_pos ha] at h
      dsimp only at h
      rcases he : P.eval (fun i => var i + -a * d i) with _ | ev
      · rw [he] at h
        have := ih _ _ _ _ _ (by positivity) h
        exact ⟨this.1, this.2.trans (by linarith)⟩
      · rw [he] at h
        dsimp only at h
        split at h
        · rename_i hm
          have hm0 : 0 < absMax P.n (fun i => -a * d i) := lt_trans hs hm
          have := ih _ _ _ _ _ (by positivity) h
          refine ⟨this.1, this.2.trans ?_⟩
          have : P.scale / absMax P.n (fun i => -a * d i) ≤ 1 := by rw [div_le_one hm0]; exact hm.le
          nlinarith
        · cases h; exact ⟨h0, le_rfl⟩
    · rw [if_neg ha] at h
      cases h; exact ⟨h0, le_rfl⟩

theorem accept_ok (P : Prob K) (st : DM K) (var : Nat → K) (t : Tested K) (h : Cons P st.d var t.p t.x t.e) :
    (accept P st t).1.g = P.grad (accept P st t).2.1 ∧ (∀ i, (accept P st t).2.1 i = var i + (accept P st t).1.p i) ∧
      (accept P st t).2.2 = P.eval (accept P st t).2.1 ∧ (accept P st t).1.h = st.h ∧ (accept P st t).1.d = st.d ∧
      (∀ i, (accept P st t).1.q i = P.grad (accept P st t).2.1 i - st.g i) := by
  obtain ⟨_, hx, he⟩ := h
  refine ⟨rfl, fun i => ?_, he, rfl, rfl, fun i => rfl⟩
  show t.x i = var i + t.p i
  rw [hx]

/-- What the search of Nocedal accepts: enough decrease, and either a short step or a slope that has become smaller. -/
theorem nocLoop_ok (P : Prob K) (hP : Sane P) (fuel : Nat) (st : DM K) (var : Nat → K) (e0 df cf : K) :
    ∀ k a p x e r, 0 < a → (P.ztol < a ∨ Cons P st.d var p x e) → nocLoop P fuel st var e0 df cf k a p x e = .ok r →
      ∃ t, r = accept P st t ∧ Cons P st.d var t.p t.x t.e ∧ 0 < t.a ∧ sufficient e0 t.a df t.e = true ∧
        (t.a ≤ stepMin ∨ inner P.n (P.grad t.x) st.d ≤ cf) := by
  intro k
  induction k with
  | zero => intro a p x e r _ _ h; simp [nocLoop] at h
  | succ k ih =>
    intro a p x e r ha hc h
    unfold nocLoop at h
    by_cases h1 : a ≥ stepMin
    · rw [if_pos h1] at h
      rcases ht : stepTest P st.d var e0 df fuel a p x e with t | _ | _
      · rw [ht] at h
        obtain ⟨hc', hg⟩ := stepTest_cons P hP.ztol st.d var e0 df fuel a p x e t hc ht
        obtain ⟨ha', -⟩ := stepTest_a P hP.scale st.d var e0 df fuel a p x e t ha ht
        simp only [Res.bind] at h
        by_cases hgood : t.good = true
        · rw [if_neg (by simp [hgood])] at h
          by_cases hcv : t.a > stepMin ∧ inner P.n (P.grad t.x) st.d > cf
          · rw [if_pos hcv] at h
            exact ih _ _ _ _ _ (by positivity) (Or.inr hc') h
          · rw [if_neg hcv] at h
            cases h
            refine ⟨t, rfl, hc', ha', by rw [← hg]; exact hgood, ?_⟩
            by_contra hcon
            push Not at hcon
            exact hcv hcon
        · rw [if_pos (by simp [hgood])] at h
          exact ih _ _ _ _ _ (by positivity) (Or.inr hc') h
      · rw [ht] at h; simp [Res.bind] at h
      · rw [ht] at h; simp [Res.bind] at h
    · rw [if_neg h1] at h; simp at h

theorem stepNoc_cases (P : Prob K) (hP : Sane P) (fuel : Nat) (st : DM K) (var : Nat → K) (e : Option K) (r : DM K × (Nat → K) × Option K)
    (h : stepNoc P fuel st var e = .ok r) :
    ∃ e0 t, e = some e0 ∧ r = accept P st t ∧ Cons P st.d var t.p t.x t.e ∧ 0 < t.a ∧ sufficient e0 t.a (P.df * dot P.n st.g st.d) t.e = true ∧
        (t.a ≤ stepMin ∨ dot P.n (P.grad t.x) st.d ≤ P.cf * dot P.n st.g st.d) := by
  rcases e with _ | e0
  · simp [stepNoc] at h
  · unfold stepNoc at h
    obtain ⟨t, h1, h2, h3, h4, h5⟩ := nocLoop_ok P hP fuel st var e0 _ _ fuel 1 _ _ _ _ one_pos (Or.inl hP.ztol1) h
    simp only [inner_dot] at h4 h5
    exact ⟨e0, t, rfl, h1, h2, h3, h4, h5⟩

theorem stepNoc_ok (P : Prob K) (hP : Sane P) (fuel : Nat) : StepOk P (stepNoc P fuel) := by
  intro st var e st' var' e' h
  obtain ⟨e0, t, -, h1, h2, -⟩ := stepNoc_cases P hP fuel st var e _ h
  have := accept_ok P st var t h2
  rw [← h1] at this
  exact this

theorem dsLoop_ok (P : Prob K) (hP : Sane P) (sqrt : K → K) (fuel : Nat) (st : DM K) (var : Nat → K) (e0 s df : K) :
    ∀ k a1 a2 v2 t r, Cons P st.d var t.p t.x t.e → dsLoop P sqrt fuel st var e0 s df k a1 a2 v2 t = .ok r →
      Cons P st.d var r.p r.x r.e := by
  intro k
  induction k with
  | zero => intro a1 a2 v2 t r _ h; simp [dsLoop] at h
  | succ k ih =>
    intro a1 a2 v2 t r hc h
    unfold dsLoop at h
    dsimp only at h
    split at h
    · cases h; exact hc
    · split at h
      · simp at h
      · split at h
        · simp at h
        · split at h
          · simp at h
          · generalize hst : stepTest P st.d var e0 df fuel _ t.p t.x _ = w at h
            rcases w with t' | _ | _
            · simp only [Res.bind] at h
              have hc' := (stepTest_cons P hP.ztol st.d var e0 df fuel _ _ _ _ t' (Or.inr hc) hst).1
              split at h
              · cases h; exact hc'
              · exact ih _ _ _ _ _ hc' h
            · simp [Res.bind] at h
            · simp [Res.bind] at h

theorem dsSearch_ok (P : Prob K) (hP : Sane P) (sqrt : K → K) (fuel : Nat) (st : DM K) (var : Nat → K) (e0 : K) (r : Tested K)
    (h : dsSearch P sqrt fuel st var e0 = .ok r) : Cons P st.d var r.p r.x r.e := by
  unfold dsSearch at h
  dsimp only at h
  rcases ht : stepTest P st.d var e0 (P.df * inner P.n st.g st.d) fuel 1 st.p st.x none with t | _ | _
  · rw [ht] at h
    simp only [Res.bind] at h
    have hc := (stepTest_cons P hP.ztol st.d var e0 _ fuel _ _ _ _ t (Or.inl hP.ztol1) ht).1
    split at h
    · cases h; exact hc
    · split at h
      · simp at h
      · split at h
        · simp at h
        · generalize hst : stepTest P st.d var e0 _ fuel _ t.p t.x _ = w at h
          rcases w with t' | _ | _
          · simp only at h
            have hc' := (stepTest_cons P hP.ztol st.d var e0 _ fuel _ _ _ _ t' (Or.inr hc) hst).1
            split at h
            · cases h; exact hc'
            · exact dsLoop_ok P hP sqrt fuel st var e0 _ _ _ _ _ _ _ _ hc' h
          · simp at h
          · simp at h
  · rw [ht] at h; simp [Res.bind] at h
  · rw [ht] at h; simp [Res.bind] at h

theorem stepDS_ok (P : Prob K) (hP : Sane P) (sqrt : K → K) (fuel : Nat) : StepOk P (stepDS P sqrt fuel) := by
  intro st var e st' var' e' h
  rcases e with _ | e0
  · simp [stepDS] at h
  · unfold stepDS at h
    dsimp only at h
    rcases ht : dsSearch P sqrt fuel st var e0 with t | _ | _
    · rw [ht] at h
      simp only [Res.bind, Res.ok.injEq] at h
      have := accept_ok P st var t (dsSearch_ok P hP sqrt fuel st var e0 t ht)
      rw [h] at this
      exact this
    · rw [ht] at h; simp [Res.bind] at h
    · rw [ht] at h; simp [Res.bind] at h

theorem mtLoop_ok (P : Prob K) (hP : Sane P) (sqrt : K → K) (fuel : Nat) (st : DM K) (var : Nat → K) (e0 df : K) :
    ∀ k al au da fl gl t r, Cons P st.d var t.p t.x t.e → mtLoop P sqrt fuel st var e0 df k al au da fl gl t = .ok r →
      Cons P st.d var r.p r.x r.e := by
  intro k
  induction k with
  | zero => intro al au da fl gl t r _ h; simp [mtLoop] at h
  | succ k ih =>
    intro al au da fl gl t r hc h
    unfold mtLoop at h
    dsimp only at h
    split at h
    · split at h
      · simp at h
      · rename_i e1 he
        generalize mtTrial sqrt al au t.a da e1 fl gl _ = m at h
        rcases m with at' | _ | _
        · simp only [Res.bind] at h
          generalize hst : stepTest P st.d var e0 df fuel at' t.p t.x _ = w at h
          rcases w with t' | _ | _
          · simp only at h
            have hc' := (stepTest_cons P hP.ztol st.d var e0 df fuel _ _ _ _ t' (Or.inr hc) hst).1
            split at h
            · cases h; exact hc'
            · split at h
              · simp at h
              · split at h
                · exact ih _ _ _ _ _ _ _ hc' h
                · exact ih _ _ _ _ _ _ _ hc' h
          · simp at h
          · simp at h
        · simp [Res.bind] at h
        · simp [Res.bind] at h
    · cases h; exact hc

theorem stepMT_ok (P : Prob K) (hP : Sane P) (sqrt : K → K) (fuel : Nat) : StepOk P (stepMT P sqrt fuel) := by
  intro st var e st' var' e' h
  rcases e with _ | e0
  · simp [stepMT] at h
  · unfold stepMT at h
    dsimp only at h
    rcases ht : stepTest P st.d var e0 (P.df * inner P.n st.g st.d) fuel 1 st.p st.x none with t | _ | _
    · rw [ht] at h
      simp only [Res.bind] at h
      have hc := (stepTest_cons P hP.ztol st.d var e0 _ fuel _ _ _ _ t (Or.inl hP.ztol1) ht).1
      split at h
      · have := accept_ok P st var t hc
        rw [Res.ok.injEq] at h
        rw [h] at this; exact this
      · rcases hm : mtLoop P sqrt fuel st var e0 (P.df * inner P.n st.g st.d) fuel 0 t.a 1 e0 (-inner P.n st.g st.d) t with t' | _ | _
        · rw [hm] at h
          have := accept_ok P st var t' (mtLoop_ok P hP sqrt fuel st var e0 _ _ _ _ _ _ _ _ _ hc hm)
          simp only [Res.ok.injEq] at h
          rw [h] at this; exact this
        · rw [hm] at h; simp at h
        · rw [hm] at h; simp at h
    · rw [ht] at h; simp [Res.bind] at h
    · rw [ht] at h; simp [Res.bind] at h

theorem stepBrent_ok (P : Prob K) (gold eps : K) (f : (Nat → K) → K) : StepOk P (stepBrent P gold eps f) := by
  intro st var e st' var' e' h
  rcases e with _ | e0
  · simp [stepBrent] at h
  · unfold stepBrent at h
    dsimp only at h
    generalize OneD.zOptLineBrent _ gold eps P.ztol 0 1 100 = w at h
    rcases w with a | _ | _
    · simp only [Res.bind] at h
      split at h
      · simp at h
      · simp only [Res.ok.injEq, Prod.mk.injEq] at h
        obtain ⟨rfl, rfl, rfl⟩ := h
        exact ⟨rfl, fun i => rfl, rfl, rfl, rfl, fun i => rfl⟩
    · simp [Res.bind] at h
    · simp [Res.bind] at h

/-! ## Success of the solver -/

variable (n : Nat) (vec : DM K → (Nat → K) → Res (DM K)) (step : DM K → (Nat → K) → Option K → Res (DM K × (Nat → K) × Option K))
  (update : DM K → Nat → Res (DM K))

theorem isTol_iff (n : Nat) (v : Nat → K) (tol : K) : isTol n v tol = true ↔ ∀ i, i < n → |v i| ≤ tol := by simp [isTol]

theorem solveLoop_spec (P : Prob K) (hstep : StepOk P step) (tol : K) :
    ∀ k i st var e R, e = P.eval var → solveLoop n vec step update tol k i st var e = .ok R →
      (R.ret = -1 ∧ R.eval = P.eval R.var) ∨
      ∃ m S, m < k ∧ R.ret = ((i + m : Nat) : Int) ∧ solveLoop n vec step update tol m i st var e = .ok S ∧ S.ret = -1 ∧ R.eval = P.eval S.var ∧
        ((∀ j, j < n → |P.grad R.var j| ≤ tol) ∨ (∀ j, j < n → |R.var j - S.var j| ≤ tol)) := by
  intro k
  induction k with
  | zero =>
    intro i st var e R he h
    simp only [solveLoop, Res.ok.injEq] at h
    subst h
    exact Or.inl ⟨rfl, he⟩
  | succ k ih =>
    intro i st var e R he h
    unfold solveLoop at h
    rcases hv : vec st var with st1 | _ | _
    · rw [hv] at h
      simp only [Res.bind] at h
      rcases hs : step st1 var e with ⟨st2, var2, e2⟩ | _ | _
      · rw [hs] at h
        dsimp only at h
        obtain ⟨hg, hp, he2, -⟩ := hstep st1 var e st2 var2 e2 hs
        by_cases htol : (isTol n st2.g tol || isTol n st2.p tol) = true
        · rw [if_pos htol] at h
          cases h
          refine Or.inr ⟨0, { ret := -1, var := var, eval := e, ws := st }, by omega, by simp, rfl, rfl, he, ?_⟩
          rcases (Bool.or_eq_true _ _).mp htol with h1 | h1
          · left; rw [isTol_iff, hg] at h1; exact h1
          · right
            rw [isTol_iff] at h1
            intro j hj
            show |var2 j - var j| ≤ tol
            rw [hp j, add_sub_cancel_left]
            exact h1 j hj
        · rw [if_neg htol] at h
          rcases hu : update st2 i with st3 | _ | _
          · rw [hu] at h
            simp only at h
            rcases ih (i+1) st3 var2 e2 R he2 h with h1 | ⟨m, S, hm, hret, hS, hSr, hev, hfin⟩
            · exact Or.inl h1
            · refine Or.inr ⟨m+1, S, by omega, by rw [hret]; congr 1; omega, ?_, hSr, hev, hfin⟩
              unfold solveLoop
              rw [hv]
              simp only [Res.bind]
              rw [hs]
              dsimp only
              rw [if_neg htol, hu]
              exact hS
          · rw [hu] at h; simp at h
          · rw [hu] at h; simp at h
      · rw [hs] at h
        cases h
        exact Or.inl ⟨rfl, he⟩
      · rw [hs] at h; simp at h
    · rw [hv] at h; simp [Res.bind] at h
    · rw [hv] at h; simp [Res.bind] at h

/-- **C130 (partial).** For every problem, direction and update, and every line search (`stepNoc_ok`, `stepDS_ok`,
`stepMT_ok`, `stepBrent_ok`): a call that returns reports either failure and the value at the point it left, or a
number `m` below the limit.  In the latter case the gradient at the point it left is within the tolerance, or that
point differs within the tolerance from the one before it, which is where a call limited to `m` iterations ends (the
first point if `m = 0`).  The number of iterations is right, but the value reported is the one of the point before. -/
theorem zOptDMSolve_partial (P : Prob K) (hstep : StepOk P step) (tol : K) (iter : Int) (st : DM K) (var : Nat → K) (R : Solved K)
    (h : zOptDMSolve P vec step update tol iter st var = .ok R) :
    (R.ret = -1 ∧ R.eval = P.eval R.var) ∨
    (R.ret = 0 ∧ R.var = var ∧ R.eval = P.eval var ∧ ∀ j, j < P.n → |P.grad var j| ≤ tol) ∨
    ∃ (m : Nat) (prev : Nat → K), m < OneD.iterInit iter ∧ R.ret = m ∧ R.eval = P.eval prev ∧ (m = 0 → prev = var) ∧
      (0 < m → ∃ S, zOptDMSolve P vec step update tol m st var = .ok S ∧ S.ret = -1 ∧ S.var = prev) ∧
      ((∀ j, j < P.n → |P.grad R.var j| ≤ tol) ∨ (∀ j, j < P.n → |R.var j - prev j| ≤ tol)) := by
  unfold zOptDMSolve at h
  dsimp only at h
  by_cases h0 : isTol P.n (started P st var).g tol = true
  · rw [if_pos h0] at h
    cases h
    exact Or.inr (Or.inl ⟨rfl, rfl, rfl, (isTol_iff _ _ _).mp h0⟩)
  · rw [if_neg h0] at h
    rcases solveLoop_spec P.n vec step update P hstep tol _ 0 _ var _ R rfl h with h1 | ⟨m, S, hm, hret, hS, hSr, hev, hfin⟩
    · exact Or.inl h1
    · refine Or.inr (Or.inr ⟨m, S.var, hm, by rw [hret, Nat.zero_add], hev, ?_, ?_, hfin⟩)
      · rintro rfl
        simp only [solveLoop, Res.ok.injEq] at hS
        rw [← hS]
      · intro hpos
        refine ⟨S, ?_, hSr, rfl⟩
        unfold zOptDMSolve
        dsimp only
        rw [if_neg h0]
        have : OneD.iterInit (m : Int) = m := by
          unfold OneD.iterInit
          rw [if_neg (by omega)]
          simp
        rw [this]
        exact hS

/-! ## Without a line search -/

/-- **C130, violated.** With no line search assigned, which is the state after `zOptDMCreate`, the method of steepest
descent adds the gradient instead of subtracting it, and reports success after this one step whatever the gradient is. -/
theorem zOptDMSolve_plain (P : Prob K) (tol : K) (htol : 0 ≤ tol) (iter : Int) (var : Nat → K) (hvar : ∃ j, j < P.n ∧ tol < |P.grad var j|) :
    ∃ R, zOptDMSolve P vecSD (stepPlain P) (updateNone P.n) tol iter created var = .ok R ∧ R.ret = 0 ∧ R.var = fun i => var i + P.grad var i := by
  obtain ⟨j, hj, hlt⟩ := hvar
  have h0 : ¬ isTol P.n (started P created var).g tol = true := by
    rw [isTol_iff]; intro h; exact absurd (h j hj) (not_le.mpr hlt)
  have hp : isTol P.n (started P created var).p tol = true := by
    rw [isTol_iff]; intro i _; simpa [started, created] using htol
  obtain ⟨k, hk⟩ : ∃ k, OneD.iterInit iter = k + 1 := by
    refine ⟨OneD.iterInit iter - 1, ?_⟩
    unfold OneD.iterInit
    split
    · rfl
    · omega
  refine ⟨{ ret := 0, var := fun i => var i + P.grad var i, eval := P.eval var, ws := { started P created var with d := (started P created var).g } }, ?_, rfl, rfl⟩
  unfold zOptDMSolve
  dsimp only
  rw [if_neg h0, hk]
  unfold solveLoop
  simp only [vecSD, Res.bind, stepPlain]
  rw [if_pos (by rw [hp, Bool.or_true])]
  rfl

/-- The parabola `x^2` with the constants of the library. -/
def parabola : Prob ℚ :=
  { n := 1, eval := fun x => some (x 0 ^ 2), grad := fun x i => if i = 0 then 2 * x 0 else 0, hess := fun _ _ _ => 2,
    scale := 1000, ztol := 1 / 10 ^ 12, df := 1 / 10000, cf := 9 / 10 }

/-- **C130, violated:** the default solver goes from 1 to 3 on the parabola and reports success. -/
theorem zOptDMSolve_default_violated :
    ∃ R, zOptDMSolve parabola vecSD (stepPlain parabola) (updateNone 1) (1 / 10 ^ 12) 0 created (fun _ => 1) = .ok R ∧
      R.ret = 0 ∧ R.var 0 = 3 ∧ ¬ |parabola.grad R.var 0| ≤ 1 / 10 ^ 12 ∧ parabola.eval R.var = some 9 := by
  obtain ⟨R, h1, h2, h3⟩ := zOptDMSolve_plain parabola (1 / 10 ^ 12) (by norm_num) 0 (fun _ => 1) ⟨0, by simp [parabola], by simp [parabola]; norm_num⟩
  refine ⟨R, h1, h2, ?_, ?_, ?_⟩
  · rw [h3]; simp [parabola]; norm_num
  · rw [h3]; simp [parabola]; norm_num [abs_of_pos]
  · rw [h3]; simp [parabola]; norm_num

/-- Half the square. -/
def half : Prob ℚ :=
  { n := 1, eval := fun x => some (x 0 ^ 2 / 2), grad := fun x i => if i = 0 then x 0 else 0, hess := fun _ _ _ => 1,
    scale := 1000, ztol := 1 / 10 ^ 12, df := 1 / 10000, cf := 9 / 10 }

/-- **C130, violated:** the value reported is not the one at the point found: on `x^2/2` from 1 the point found is 0
and the value reported is 1/2. -/
theorem zOptDMSolve_value_violated :
    (match zOptDMSolve half vecSD (stepNoc half 3) (updateNone 1) (1 / 10 ^ 12) 0 created (fun _ => 1) with
      | .ok R => decide (R.ret = 0 ∧ R.var 0 = 0 ∧ R.eval = some (1 / 2) ∧ half.eval R.var = some 0) | _ => false) = true := by
  decide +kernel

theorem half_sane : Sane half := ⟨by norm_num [half], by norm_num [half], by norm_num [half], by norm_num [half]⟩

example : ∃ R, zOptDMSolve half vecSD (stepNoc half 3) (updateNone 1) (1 / 10 ^ 12) 0 created (fun _ => 1) = .ok R ∧ R.ret = 0 := by
  have h := zOptDMSolve_value_violated
  split at h
  · rename_i R hR
    exact ⟨R, hR, (of_decide_eq_true h).1⟩
  · simp at h

/-! ## Descent -/

theorem dot_self_nonneg (n : Nat) (v : Nat → K) : 0 ≤ dot n v v := Finset.sum_nonneg fun _ _ => mul_self_nonneg _

/-- A search of Nocedal that returns does not ascend if the direction does not, and the decrease is a fixed fraction
of what the slope at the start promises for a positive length. -/
theorem stepNoc_descends (P : Prob K) (hP : Sane P) (fuel : Nat) (st st' : DM K) (var var' : Nat → K) (e e' : Option K)
    (h : stepNoc P fuel st var e = .ok (st', var', e')) (hs : 0 ≤ dot P.n st.g st.d) :
    ∃ e0 e1, e = some e0 ∧ P.eval var' = some e1 ∧ e1 ≤ e0 := by
  obtain ⟨e0, t, he, h1, ⟨-, -, h2⟩, h3, h4, -⟩ := stepNoc_cases P hP fuel st var e _ h
  have hv : var' = t.x := congrArg (fun r => r.2.1) h1
  rw [hv, ← h2]
  rcases te : t.e with _ | e1
  · rw [te] at h4; simp [sufficient] at h4
  · rw [te] at h4
    simp only [sufficient, decide_eq_true_eq] at h4
    refine ⟨e0, e1, he, rfl, ?_⟩
    have := mul_nonneg h3.le (mul_nonneg hP.df hs)
    linarith

/-- A property of the workspace, the point and the value kept by every turn holds at the end. -/
theorem solveLoop_inv (tol : K) (I : DM K → (Nat → K) → Option K → Prop) (V : (Nat → K) → Prop)
    (hV : ∀ st var e, I st var e → V var)
    (hI : ∀ st var e st1 st2 var2 e2, I st var e → vec st var = .ok st1 → step st1 var e = .ok (st2, var2, e2) →
      V var2 ∧ (¬ (isTol n st2.g tol || isTol n st2.p tol) = true → ∀ i st3, update st2 i = .ok st3 → I st3 var2 e2)) :
    ∀ k i st var e R, I st var e → solveLoop n vec step update tol k i st var e = .ok R → V R.var := by
  intro k
  induction k with
  | zero =>
    intro i st var e R hi h
    simp only [solveLoop, Res.ok.injEq] at h
    subst h
    exact hV _ _ _ hi
  | succ k ih =>
    intro i st var e R hi h
    unfold solveLoop at h
    rcases hv : vec st var with st1 | _ | _
    · rw [hv] at h
      simp only [Res.bind] at h
      rcases hs : step st1 var e with ⟨st2, var2, e2⟩ | _ | _
      · rw [hs] at h
        dsimp only at h
        obtain ⟨hV2, hI2⟩ := hI st var e st1 st2 var2 e2 hi hv hs
        by_cases htol : (isTol n st2.g tol || isTol n st2.p tol) = true
        · rw [if_pos htol] at h
          cases h
          exact hV2
        · rw [if_neg htol] at h
          rcases hu : update st2 i with st3 | _ | _
          · rw [hu] at h
            exact ih _ _ _ _ _ (hI2 htol i st3 hu) h
          · rw [hu] at h; simp at h
          · rw [hu] at h; simp at h
      · rw [hs] at h
        cases h
        exact hV _ _ _ hi
      · rw [hs] at h; simp at h
    · rw [hv] at h; simp [Res.bind] at h
    · rw [hv] at h; simp [Res.bind] at h

/-- The value at the point is a number not above `e0`. -/
def Below (P : Prob K) (e0 : K) (var : Nat → K) : Prop := ∃ e1, P.eval var = some e1 ∧ e1 ≤ e0

/-- **C131 (partial).** Steepest descent with Nocedal's search never leaves a point worse than the first one, whether
or not it reports success, for every evaluator and every function taken for its gradient. -/
theorem zOptDMSolve_SD_descends (P : Prob K) (hP : Sane P) (fuel : Nat) (tol : K) (iter : Int) (st : DM K) (var : Nat → K) (e0 : K)
    (he0 : P.eval var = some e0) (R : Solved K)
    (h : zOptDMSolve P vecSD (stepNoc P fuel) (updateNone P.n) tol iter st var = .ok R) :
    ∃ e1, P.eval R.var = some e1 ∧ e1 ≤ e0 := by
  unfold zOptDMSolve at h
  dsimp only at h
  split at h
  · cases h; exact ⟨e0, he0, le_rfl⟩
  · refine solveLoop_inv P.n vecSD (stepNoc P fuel) (updateNone P.n) tol (fun _ v e => e = P.eval v ∧ Below P e0 v) (Below P e0) (fun _ _ _ h => h.2) ?_
      _ _ _ _ _ R ⟨rfl, e0, he0, le_rfl⟩ h
    rintro st var e st1 st2 var2 e2 ⟨rfl, e1, he1, hle⟩ hv hs
    have hok := stepNoc_ok P hP fuel _ _ _ _ _ _ hs
    have hd : st1.d = st1.g := by cases hv; rfl
    obtain ⟨e3, e4, h3, h4, h5⟩ := stepNoc_descends P hP fuel st1 st2 var var2 _ e2 hs (by rw [hd]; exact dot_self_nonneg _ _)
    rw [he1] at h3
    cases h3
    exact ⟨⟨e4, h4, h5.trans hle⟩, fun _ i st3 _ => ⟨hok.2.2.1, e4, h4, h5.trans hle⟩⟩

example : ∃ R, zOptDMSolve half vecSD (stepNoc half 3) (updateNone 1) (1 / 10 ^ 12) 0 created (fun _ => 1) = .ok R ∧ half.eval R.var = some 0 := by
  have h := zOptDMSolve_value_violated
  split at h
  · rename_i R hR
    exact ⟨R, hR, (of_decide_eq_true h).2.2.2⟩
  · simp at h

/-! ## The variable metric -/

/-- The bilinear form of the first `n` rows and columns. -/
def form (n : Nat) (h : Nat → Nat → K) (u v : Nat → K) : K := ∑ i ∈ range n, u i * dot n (h i) v

/-- Symmetric and positive definite. -/
structure PosDef (n : Nat) (h : Nat → Nat → K) : Prop where
  symm : ∀ i j, i < n → j < n → h i j = h j i
  pos : ∀ v : Nat → K, (∃ i, i < n ∧ v i ≠ 0) → 0 < form n h v v

/-- The update of Broyden, Fletcher, Goldfarb and Shanno for the inverse of the Hessian matrix, from the step `p` and
the difference `q` of the gradients. -/
def bfgs (n : Nat) (h : Nat → Nat → K) (p q : Nat → K) (i j : Nat) : K :=
  h i j + ((form n h q q / dot n p q + 1) * p i * p j - dot n (h i) q * p j - dot n (h j) q * p i) / dot n p q

/-- The update of Davidon, Fletcher and Powell. -/
def dfp (n : Nat) (h : Nat → Nat → K) (p q : Nat → K) (i j : Nat) : K :=
  h i j + p i * p j / dot n p q - dot n (h i) q * dot n (h j) q / form n h q q

theorem updateBFGS_spec (n : Nat) (st st' : DM K) (c : Nat) (h : updateBFGS n st c = .ok st') :
    dot n st.p st.q ≠ 0 ∧ (∀ i j, st'.h i j = bfgs n st.h st.p st.q i j) ∧ st'.g = st.g ∧ st'.p = st.p ∧ st'.d = st.d := by
  unfold updateBFGS at h
  dsimp only at h
  split at h
  · simp at h
  · rename_i hne
    cases h
    rw [inner_dot] at hne
    refine ⟨hne, fun i j => ?_, rfl, rfl, rfl⟩
    simp only [inner_dot, bfgs, form, dot]
    field_simp

theorem updateDFP_spec (n : Nat) (st st' : DM K) (c : Nat) (h : updateDFP n st c = .ok st') :
    dot n st.p st.q ≠ 0 ∧ (∀ i j, st'.h i j = bfgs n st.h st.p st.q i j) ∧ st'.g = st.g ∧ st'.p = st.p ∧ st'.d = st.d := by
  unfold updateDFP at h
  dsimp only at h
  split at h
  · simp at h
  · rename_i hne
    cases h
    rw [inner_dot] at hne
    refine ⟨hne, fun i j => ?_, rfl, rfl, rfl⟩
    have hf : dot n (fun i => dot n (st.h i) st.q) st.q = form n st.h st.q st.q := by
      simp only [form]; exact Finset.sum_congr rfl fun i _ => mul_comm _ _
    simp only [inner_dot, bfgs]
    rw [hf]
    field_simp
    ring

theorem dot_comm (n : Nat) (u v : Nat → K) : dot n u v = dot n v u := Finset.sum_congr rfl fun _ _ => mul_comm _ _

theorem form_dot (n : Nat) (h : Nat → Nat → K) (u v : Nat → K) : form n h u v = dot n u (fun i => dot n (h i) v) := rfl

theorem form_symm (n : Nat) (h : Nat → Nat → K) (hs : ∀ i j, i < n → j < n → h i j = h j i) (u v : Nat → K) : form n h u v = form n h v u := by
  simp only [form, dot, Finset.mul_sum]
  rw [Finset.sum_comm]
  refine Finset.sum_congr rfl fun i hi => Finset.sum_congr rfl fun j hj => ?_
  rw [hs j i (mem_range.mp hj) (mem_range.mp hi)]; ring

theorem dot_add_smul (n : Nat) (u v w : Nat → K) (a : K) : dot n u (fun i => v i - a * w i) = dot n u v - a * dot n u w := by
  simp only [dot, Finset.mul_sum, ← Finset.sum_sub_distrib]
  exact Finset.sum_congr rfl fun i _ => by ring

theorem form_sub_right (n : Nat) (h : Nat → Nat → K) (u v w : Nat → K) (a : K) :
    form n h u (fun i => v i - a * w i) = form n h u v - a * form n h u w := by
  simp only [form, Finset.mul_sum, ← Finset.sum_sub_distrib]
  refine Finset.sum_congr rfl fun i _ => ?_
  rw [dot_add_smul]; ring

theorem bfgs_row (n : Nat) (h : Nat → Nat → K) (p q v : Nat → K) (i : Nat) :
    dot n (bfgs n h p q i) v = dot n (h i) v + ((form n h q q / dot n p q + 1) * p i * dot n p v - dot n (h i) q * dot n p v - form n h v q * p i) / dot n p q := by
  have e3 : form n h v q = ∑ j ∈ range n, dot n (h j) q * v j := Finset.sum_congr rfl fun j _ => mul_comm _ _
  have this : ∀ j, bfgs n h p q i j * v j = h i j * v j + ((form n h q q / dot n p q + 1) * p i * (p j * v j) - dot n (h i) q * (p j * v j) - (dot n (h j) q * v j) * p i) / dot n p q := by
    intro j
    simp only [bfgs]
    ring
  rw [e3]
  show ∑ j ∈ range n, bfgs n h p q i j * v j = _
  rw [Finset.sum_congr rfl fun j _ => this j, Finset.sum_add_distrib, ← Finset.sum_div, Finset.sum_sub_distrib, Finset.sum_sub_distrib,
    ← Finset.mul_sum, ← Finset.mul_sum, ← Finset.sum_mul]
  rfl

/-- **C132.** The updated matrix maps the difference of the gradients to the step. -/
theorem bfgs_secant (n : Nat) (h : Nat → Nat → K) (p q : Nat → K) (hpq : dot n p q ≠ 0) (i : Nat) : dot n (bfgs n h p q i) q = p i := by
  rw [bfgs_row]
  field_simp
  ring

theorem bfgs_form (n : Nat) (h : Nat → Nat → K) (hs : ∀ i j, i < n → j < n → h i j = h j i) (p q v : Nat → K) (hpq : dot n p q ≠ 0) :
    form n (bfgs n h p q) v v = form n h (fun i => v i - (dot n p v / dot n p q) * q i) (fun i => v i - (dot n p v / dot n p q) * q i) + dot n p v ^ 2 / dot n p q := by
  set a := dot n p v / dot n p q with ha
  have e1 : form n h (fun i => v i - a * q i) (fun i => v i - a * q i) = form n h v v - 2 * a * form n h v q + a ^ 2 * form n h q q := by
    rw [form_sub_right, form_symm n h hs _ v, form_symm n h hs (fun i => v i - a * q i) q, form_sub_right, form_sub_right, form_symm n h hs q v]; ring
  have e2 : form n (bfgs n h p q) v v = form n h v v + ((form n h q q / dot n p q + 1) * dot n p v * dot n p v - 2 * form n h v q * dot n p v) / dot n p q := by
    have r2 : form n (bfgs n h p q) v v = ∑ i ∈ range n, (v i * dot n (h i) v + ((form n h q q / dot n p q + 1) * dot n p v * (p i * v i) - dot n p v * (v i * dot n (h i) q) - form n h v q * (p i * v i)) / dot n p q) := by
      show ∑ i ∈ range n, v i * dot n (bfgs n h p q i) v = _
      refine Finset.sum_congr rfl fun i _ => ?_
      rw [bfgs_row]
      ring
    have t1 : ∑ i ∈ range n, v i * dot n (h i) q = form n h v q := rfl
    have t2 : ∑ i ∈ range n, v i * dot n (h i) v = form n h v v := rfl
    have t3 : ∑ i ∈ range n, p i * v i = dot n p v := rfl
    rw [r2, Finset.sum_add_distrib, ← Finset.sum_div, Finset.sum_sub_distrib, Finset.sum_sub_distrib, ← Finset.mul_sum, ← Finset.mul_sum, ← Finset.mul_sum, t1, t2, t3]
    ring
  rw [e2, e1, ha]
  field_simp
  ring

/-- **C132.** The update keeps a symmetric positive definite matrix so, as long as the step and the difference of the
gradients make an acute angle. -/
theorem bfgs_posDef (n : Nat) (h : Nat → Nat → K) (hpd : PosDef n h) (p q : Nat → K) (hpq : 0 < dot n p q) : PosDef n (bfgs n h p q) := by
  refine ⟨fun i j hi hj => ?_, fun v hv => ?_⟩
  · simp only [bfgs]; rw [hpd.symm i j hi hj]; ring
  · rw [bfgs_form n h hpd.symm p q v hpq.ne']
    set w : Nat → K := fun i => v i - (dot n p v / dot n p q) * q i with hw
    by_cases hwz : ∃ i, i < n ∧ w i ≠ 0
    · have := hpd.pos w hwz
      have : 0 ≤ dot n p v ^ 2 / dot n p q := by positivity
      linarith
    · push Not at hwz
      have h0 : form n h w w = 0 := by
        unfold form
        exact Finset.sum_eq_zero fun i hi => by rw [hwz i (mem_range.mp hi), zero_mul]
      have hne : dot n p v ≠ 0 := by
        intro hz
        obtain ⟨i, hi, hvi⟩ := hv
        have := hwz i hi
        simp only [hw, hz, zero_div, zero_mul, sub_zero] at this
        exact hvi this
      rw [h0, zero_add]
      positivity

/-- **C132, violated.** What is called the method of Davidon, Fletcher and Powell is the one of Broyden, Fletcher,
Goldfarb and Shanno (`updateDFP_spec`): the two differ. -/
theorem updateDFP_violated :
    (match updateDFP 2 ({ created with p := fun i => if i = 0 then 1 else 0, q := fun _ => 1, h := fun i j => if i = j then 1 else 0 } : DM ℚ) 0 with
      | .ok st => decide (st.h 1 1 = 1 ∧ dfp 2 (fun i j => if i = j then 1 else 0) (fun i => if i = 0 then 1 else 0) (fun _ => 1) 1 1 = (1 / 2 : ℚ)) | _ => false) = true := by
  decide +kernel

theorem one_posDef (n : Nat) : PosDef n (fun i j => if i = j then (1 : K) else 0) := by
  refine ⟨fun i j _ _ => by simp only [eq_comm], fun v hv => ?_⟩
  have : form n (fun i j => if i = j then (1 : K) else 0) v v = dot n v v := by
    unfold form
    refine Finset.sum_congr rfl fun i hi => ?_
    congr 1
    simp only [dot, ite_mul, one_mul, zero_mul]
    rw [Finset.sum_ite_eq, if_pos hi]
  rw [this]
  obtain ⟨i, hi, hvi⟩ := hv
  exact Finset.sum_pos' (fun _ _ => mul_self_nonneg _) ⟨i, mem_range.mpr hi, mul_self_pos.mpr hvi⟩

example : PosDef 2 (bfgs 2 (fun i j => if i = j then (1 : ℚ) else 0) (fun i => if i = 0 then 1 else 0) (fun _ => 1)) :=
  bfgs_posDef 2 _ (one_posDef 2) _ _ (by simp [dot, Finset.sum_range_succ])

/-- A steep parabola with the constants of the library. -/
def steep : Prob ℚ :=
  { n := 1, eval := fun x => some (1000000000000000 * x 0 ^ 2), grad := fun x i => if i = 0 then 2000000000000000 * x 0 else 0,
    hess := fun _ _ _ => 2000000000000000, scale := 1000, ztol := 1 / 1000000000000, df := 1 / 10000, cf := 9 / 10 }

/-- **C131, violated:** with the line search of Dennis and Schnabel, whatever the square root, steepest descent leaves
a point far worse than the first one.  The step is cut below the tolerance before it has been tried, and the point of
the uncut step is accepted: on `10^15 x^2` the iteration goes from 1 to about `-2 10^12`. -/
theorem zOptDMSolve_DS_violated (sqrt : ℚ → ℚ) :
    ∃ R, zOptDMSolve steep vecSD (stepDS steep sqrt 10) (updateNone 1) (1 / 1000000000000) 1 created (fun _ => 1) = .ok R ∧
      steep.eval (fun _ => 1) = some 1000000000000000 ∧ R.var 0 = -1999999999999 ∧
      steep.eval R.var = some 3999999999996000000000001000000000000000 := by
  have h : (match zOptDMSolve steep vecSD (stepDS steep sqrt 10) (updateNone 1) (1 / 1000000000000) 1 created (fun _ => 1) with
      | .ok R => decide (R.var 0 = -1999999999999 ∧ steep.eval R.var = some 3999999999996000000000001000000000000000)
      | _ => false) = true := by with_unfolding_all rfl
  split at h
  · rename_i R hR
    exact ⟨R, hR, by norm_num [steep], of_decide_eq_true h⟩
  · simp at h

end Zm.OptDM
