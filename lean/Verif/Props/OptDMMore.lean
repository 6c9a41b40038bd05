import Verif.Props.OptDM

/-!
# Descent methods: convex objectives, convergence of steepest descent, numerical derivatives, Levenberg-Marquardt
-/

set_option linter.unusedSectionVars false

namespace Zm.OptDM
open Zm LE Misc Finset
variable {K : Type*} [Field K] [LinearOrder K] [IsStrictOrderedRing K]

/-! ## Variable metric methods on convex objectives -/

/-- The gradient of a strictly convex function. -/
def StrictMono (P : Prob K) : Prop :=
  ∀ x y : Nat → K, (∃ i, i < P.n ∧ x i ≠ y i) → 0 < dot P.n (fun i => x i - y i) (fun i => P.grad x i - P.grad y i)

/-- The updates offered: both put the matrix of Broyden, Fletcher, Goldfarb and Shanno. -/
def IsBFGS (n : Nat) (update : DM K → Nat → Res (DM K)) : Prop :=
  ∀ st st' c, update st c = .ok st' → (∀ i j, st'.h i j = bfgs n st.h st.p st.q i j) ∧ st'.g = st.g

theorem updateBFGS_is (n : Nat) : IsBFGS (K := K) n (updateBFGS n) := fun st st' c h =>
  let s := updateBFGS_spec n st st' c h; ⟨s.2.1, s.2.2.1⟩

theorem updateDFP_is (n : Nat) : IsBFGS (K := K) n (updateDFP n) := fun st st' c h =>
  let s := updateDFP_spec n st st' c h; ⟨s.2.1, s.2.2.1⟩

/-- **C131 (partial).** The variable metric methods with Nocedal's search never leave a point worse than the first
one, if the gradient is the one of a strictly convex function. -/
theorem zOptDMSolve_VM_descends (P : Prob K) (hP : Sane P) (hmono : StrictMono P) (update : DM K → Nat → Res (DM K)) (hup : IsBFGS P.n update)
    (fuel : Nat) (tol : K) (htol : 0 ≤ tol) (iter : Int) (st : DM K) (var : Nat → K) (e0 : K) (he0 : P.eval var = some e0) (R : Solved K)
    (h : zOptDMSolve P (vecVM P.n) (stepNoc P fuel) update tol iter st var = .ok R) :
    ∃ e1, P.eval R.var = some e1 ∧ e1 ≤ e0 := by
  unfold zOptDMSolve at h
  dsimp only at h
  split at h
  · cases h; exact ⟨e0, he0, le_rfl⟩
  · refine solveLoop_inv P.n (vecVM P.n) (stepNoc P fuel) update tol (fun st v e => e = P.eval v ∧ Below P e0 v ∧ PosDef P.n st.h ∧ st.g = P.grad v)
      (Below P e0) (fun _ _ _ h => h.2.1) ?_ _ _ _ _ _ R ⟨rfl, ⟨e0, he0, le_rfl⟩, one_posDef _, rfl⟩ h
    rintro st var e st1 st2 var2 e2 ⟨rfl, ⟨e1, he1, hle⟩, hpd, hg⟩ hv hs
    obtain ⟨hg2, hp2, he2, hh2, -, hq2⟩ := stepNoc_ok P hP fuel _ _ _ _ _ _ hs
    have hd : ∀ i, st1.d i = dot P.n (st.h i) st.g := by cases hv; intro i; exact inner_dot _ _ _
    have hst1 : st1.g = st.g ∧ st1.h = st.h := by cases hv; exact ⟨rfl, rfl⟩
    have hnn : 0 ≤ dot P.n st1.g st1.d := by
      rw [hst1.1]
      have : dot P.n st.g st1.d = form P.n st.h st.g st.g := Finset.sum_congr rfl fun i _ => by rw [hd]
      rw [this]
      by_cases hz : ∃ i, i < P.n ∧ st.g i ≠ 0
      · exact (hpd.pos _ hz).le
      · push Not at hz
        exact (Finset.sum_eq_zero fun i hi => by rw [hz i (mem_range.mp hi), zero_mul]).ge
    obtain ⟨e3, e4, h3, h4, h5⟩ := stepNoc_descends P hP fuel st1 st2 var var2 _ e2 hs hnn
    rw [he1] at h3
    cases h3
    refine ⟨⟨e4, h4, h5.trans hle⟩, fun hnt i st3 hu => ⟨he2, ⟨e4, h4, h5.trans hle⟩, ?_, ?_⟩⟩
    · obtain ⟨hu1, -⟩ := hup st2 st3 i hu
      have e : st3.h = bfgs P.n st2.h st2.p st2.q := funext fun i => funext fun j => hu1 i j
      rw [e]
      refine bfgs_posDef P.n _ (by rw [hh2, hst1.2]; exact hpd) _ _ ?_
      have hne : ∃ i, i < P.n ∧ var2 i ≠ var i := by
        by_contra hcon
        push Not at hcon
        apply hnt
        rw [Bool.or_eq_true]
        right
        rw [isTol_iff]
        intro i hi
        have := hp2 i
        rw [hcon i hi] at this
        have : st2.p i = 0 := by linarith
        rw [this, abs_zero]; exact htol
      have := hmono var2 var hne
      have e2 : dot P.n st2.p st2.q = dot P.n (fun i => var2 i - var i) (fun i => P.grad var2 i - P.grad var i) := by
        refine Finset.sum_congr rfl fun i _ => ?_
        beta_reduce
        rw [hp2 i, hq2 i, hst1.1, hg]; ring
      rw [e2]; exact this
    · rw [(hup st2 st3 i hu).2, hg2]

theorem half_mono : StrictMono half := by
  rintro x y ⟨i, hi, hne⟩
  have h0 : i = 0 := by simp only [half] at hi; omega
  subst h0
  show 0 < dot 1 _ _
  simp only [dot, Finset.sum_range_one, half, if_true]
  exact mul_self_pos.mpr (sub_ne_zero.mpr hne)

example : (match zOptDMSolve half (vecVM 1) (stepNoc half 3) (updateBFGS 1) (1 / 10 ^ 12) 0 created (fun _ => 1) with
      | .ok R => decide (R.ret = 0 ∧ R.var 0 = 0) | _ => false) = true := by
  decide +kernel

/-! ## Convergence of steepest descent -/

theorem absMax_attained (n : Nat) (v : Nat → K) (hn : 0 < n) : ∃ j, j < n ∧ absMax n v = |v j| := by
  unfold absMax
  refine forUp_inv (lo := 1) (hi := n) _ _ (fun k (x : K) => ∃ j, j < k ∧ x = |v j|) hn ⟨0, by omega, rfl⟩ ?_
  rintro i t _ _ ⟨j, hj, ht⟩
  beta_reduce
  split
  · exact ⟨i, by omega, rfl⟩
  · exact ⟨j, by omega, ht⟩

theorem absMax_smul (n : Nat) (v : Nat → K) (hn : 0 < n) (a : K) (ha : 0 ≤ a) : absMax n (fun i => -a * v i) = a * absMax n v := by
  obtain ⟨j, hj, h1⟩ := absMax_attained n v hn
  obtain ⟨i, hi, h2⟩ := absMax_attained n (fun i => -a * v i) hn
  have e : ∀ i, |-a * v i| = a * |v i| := fun i => by rw [abs_mul, abs_neg, abs_of_nonneg ha]
  apply le_antisymm
  · rw [h2, e]
    exact mul_le_mul_of_nonneg_left ((absMax_spec n v hn).1 i hi) ha
  · rw [h1, ← e]
    exact (absMax_spec n (fun i => -a * v i) hn).1 j hj

/-- Without `NaN`, and unless the direction is so long that the greatest step is below `zTOL`, the test is made at the
length it ends with, which is the one given or the one of the greatest step. -/
theorem stepTest_total (P : Prob K) (hP : Sane P) (hn : 0 < P.n) (f : (Nat → K) → K) (hf : ∀ x, P.eval x = some (f x)) (d var : Nat → K)
    (hd : P.ztol * absMax P.n d < P.scale) (e0 df : K) (k : Nat) (a : K) (ha : P.ztol < a) (p x : Nat → K) (e : Option K) (t : Tested K)
    (h : stepTest P d var e0 df k a p x e = .ok t) :
    P.ztol < t.a ∧ (t.p = fun i => -t.a * d i) ∧ (t.x = fun i => var i + t.p i) ∧ t.e = some (f t.x) ∧
      (t.good = true ↔ e0 - f t.x ≥ t.a * df) ∧ (t.a = a ∨ t.a * absMax P.n d = P.scale) := by
  have ha0 : 0 < a := lt_of_le_of_lt hP.ztol ha
  rcases k with _ | k
  · simp [stepTest] at h
  · unfold stepTest at h
    rw [if_pos ha] at h
    simp only [hf] at h
    split at h
    · rename_i hm
      rw [absMax_smul _ _ hn a ha0.le] at h hm
      have hM : 0 < absMax P.n d := by
        by_contra hcon
        have : a * absMax P.n d ≤ 0 := mul_nonpos_of_nonneg_of_nonpos ha0.le (not_lt.mp hcon)
        linarith [hP.scale]
      have ea : a * (P.scale / (a * absMax P.n d)) = P.scale / absMax P.n d := by field_simp
      rw [ea] at h
      have h1 : P.ztol < P.scale / absMax P.n d := by rw [lt_div_iff₀ hM]; exact hd
      rcases k with _ | k
      · simp [stepTest] at h
      · unfold stepTest at h
        rw [if_pos h1] at h
        simp only [hf] at h
        rw [absMax_smul _ _ hn _ (div_nonneg hP.scale.le hM.le), div_mul_cancel₀ _ hM.ne', if_neg (lt_irrefl _)] at h
        cases h
        exact ⟨h1, rfl, rfl, rfl, by simp [sufficient], Or.inr (div_mul_cancel₀ _ hM.ne')⟩
    · cases h
      exact ⟨ha, rfl, rfl, rfl, by simp [sufficient], Or.inl rfl⟩

theorem nocLoop_total (P : Prob K) (hP : Sane P) (hz : P.ztol < stepMin) (hn : 0 < P.n) (f : (Nat → K) → K) (hf : ∀ x, P.eval x = some (f x))
    (L : K) (hL : L * stepMin ≤ 1 - P.df) (hdf1 : P.df < 1) (fuel : Nat) (st : DM K) (var : Nat → K)
    (hd : P.ztol * absMax P.n st.d < P.scale) (s cf : K) (hs : 0 < s)
    (hsm : ∀ a, 0 ≤ a → f (fun i => var i + -a * st.d i) ≤ f var - a * s + L / 2 * a ^ 2 * s) :
    ∀ k a p x e, stepMin ≤ a → nocLoop P fuel st var (f var) (P.df * s) cf k a p x e ≠ .fail ∧
      ∀ r, nocLoop P fuel st var (f var) (P.df * s) cf k a p x e = .ok r →
        ∃ t, r = accept P st t ∧ 0 < t.a ∧ f var - f t.x ≥ t.a * (P.df * s) ∧ (stepMin ≤ t.a ∨ t.a * absMax P.n st.d = P.scale) := by
  intro k
  induction k with
  | zero => intro a p x e _; simp [nocLoop]
  | succ k ih =>
    intro a p x e ha
    unfold nocLoop
    rw [if_pos ha]
    rcases ht : stepTest P st.d var (f var) (P.df * s) fuel a p x e with t | _ | _
    · obtain ⟨h1, h2, h3, h4, h5, h6⟩ := stepTest_total P hP hn f hf st.d var hd _ _ fuel a (lt_of_lt_of_le hz ha) p x e t ht
      have hta : 0 < t.a := lt_of_le_of_lt hP.ztol h1
      simp only [Res.bind]
      by_cases hg : t.good = true
      · rw [if_neg (by simp [hg])]
        by_cases hc : t.a > stepMin ∧ inner P.n (P.grad t.x) st.d > cf
        · rw [if_pos hc]
          refine ih _ _ _ _ ?_
          have : (0 : K) < stepMin := by norm_num [stepMin]
          linarith [hc.1]
        · rw [if_neg hc]
          refine ⟨by simp, fun r hr => ⟨t, ?_, hta, h5.mp hg, ?_⟩⟩
          · cases hr; rfl
          · rcases h6 with h6 | h6
            · left; rw [h6]; exact ha
            · exact Or.inr h6
      · rw [if_pos (by simp [hg])]
        refine ih _ _ _ _ ?_
        have hng : ¬ (f var - f t.x ≥ t.a * (P.df * s)) := fun h => hg (h5.mpr h)
        have hx : t.x = fun i => var i + -t.a * st.d i := by rw [h3, h2]
        have := hsm t.a hta.le
        rw [← hx] at this
        push Not at hng
        have h7 : t.a * (P.df * s) > t.a * s - L / 2 * t.a ^ 2 * s := by linarith
        have h8 : 0 < (t.a * s) * (P.df - 1 + L / 2 * t.a) := by nlinarith
        have h9 : 0 < P.df - 1 + L / 2 * t.a := by
          by_contra hcon
          have := mul_nonpos_of_nonneg_of_nonpos (mul_pos hta hs).le (not_lt.mp hcon)
          linarith
        have hLpos : 0 < L := by
          by_contra hcon
          have : L / 2 * t.a ≤ 0 := mul_nonpos_of_nonpos_of_nonneg (by linarith) hta.le
          linarith
        have h10 : L * stepMin < L * (t.a * (1/2)) := by linarith
        exact (lt_of_mul_lt_mul_left h10 hLpos.le).le
    · exfalso
      revert ht
      generalize fuel = q
      intro ht
      have : ∀ q a p x e, stepTest P st.d var (f var) (P.df * s) q a p x e ≠ .fail := by
        intro q
        induction q with
        | zero => intro a p x e; simp [stepTest]
        | succ q ihq =>
          intro a p x e
          unfold stepTest
          split
          · simp only [hf]
            split
            · exact ihq _ _ _ _
            · simp
          · simp
      exact this _ _ _ _ _ ht
    · simp [Res.bind]

/-- What an iteration gains at least while the gradient exceeds the tolerance. -/
def gain (P : Prob K) (tol : K) : K := P.df * min (stepMin * tol ^ 2) (P.scale * tol)

/-- **C131.** Steepest descent with Nocedal's search succeeds: let the objective have the lower bound `m` and be smooth
with a constant `L` that lets the shortest step (1/1000) decrease it, the gradient being shorter than `scale / zTOL`.
A call that returns and is allowed more iterations than `(f(var) - m) / gain` does not report failure. -/
theorem zOptDMSolve_SD_succeeds (P : Prob K) (hP : Sane P) (hz : P.ztol < stepMin) (hn : 0 < P.n) (f : (Nat → K) → K) (hf : ∀ x, P.eval x = some (f x))
    (m : K) (hm : ∀ x, m ≤ f x) (L : K) (hL : L * stepMin ≤ 1 - P.df) (hdf1 : P.df < 1)
    (hlong : ∀ x, P.ztol * absMax P.n (P.grad x) < P.scale)
    (hsm : ∀ x a, 0 ≤ a → f (fun i => x i + -a * P.grad x i) ≤ f x - a * dot P.n (P.grad x) (P.grad x) + L / 2 * a ^ 2 * dot P.n (P.grad x) (P.grad x))
    (fuel : Nat) (tol : K) (htol : 0 < tol) (iter : Int) (st : DM K) (var : Nat → K)
    (hiter : f var - m < (OneD.iterInit iter : K) * gain P tol) (R : Solved K)
    (h : zOptDMSolve P vecSD (stepNoc P fuel) (updateNone P.n) tol iter st var = .ok R) : 0 ≤ R.ret := by
  have main : ∀ (k i : Nat) (st : DM K) (var : Nat → K) (R : Solved K), st.g = P.grad var → ¬ isTol P.n st.g tol = true → f var - m < (k : K) * gain P tol →
      solveLoop P.n vecSD (stepNoc P fuel) (updateNone P.n) tol k i st var (P.eval var) = .ok R → 0 ≤ R.ret := by
    intro k
    induction k with
    | zero =>
      intro i st var R _ _ hlt _
      have := hm var
      simp only [Nat.cast_zero, zero_mul] at hlt
      linarith
    | succ k ih =>
      intro i st var R hg hnt hlt h
      unfold solveLoop at h
      simp only [vecSD, Res.bind] at h
      obtain ⟨j, hj, hjt⟩ : ∃ j, j < P.n ∧ tol < |st.g j| := by
        rw [isTol_iff] at hnt; push Not at hnt; exact hnt
      have hM : tol < absMax P.n st.g := lt_of_lt_of_le hjt ((absMax_spec P.n st.g hn).1 j hj)
      have hs2 : absMax P.n st.g ^ 2 ≤ dot P.n st.g st.g := by
        obtain ⟨l, hl, e⟩ := absMax_attained P.n st.g hn
        rw [e, sq_abs, pow_two]
        exact Finset.single_le_sum (f := fun i => st.g i * st.g i) (fun i _ => mul_self_nonneg _) (mem_range.mpr hl)
      have hs0 : 0 < dot P.n st.g st.g := lt_of_lt_of_le (pow_pos (lt_trans htol hM) 2) hs2
      have hloop := nocLoop_total P hP hz hn f hf L hL hdf1 fuel { st with d := st.g } var (by rw [show ({ st with d := st.g } : DM K).d = P.grad var from hg]; exact hlong var)
        (dot P.n st.g st.g) (P.cf * dot P.n st.g st.g) hs0 (by
          intro a ha
          have := hsm var a ha
          rw [← hg] at this
          exact this) fuel 1 st.p st.x none (by norm_num [stepMin])
      have estep : stepNoc P fuel { st with d := st.g } var (P.eval var) = nocLoop P fuel { st with d := st.g } var (f var) (P.df * dot P.n st.g st.g) (P.cf * dot P.n st.g st.g) fuel 1 st.p st.x none := by
        rw [hf]; simp only [stepNoc, inner_dot]
      rw [estep] at h
      rcases hr : nocLoop P fuel { st with d := st.g } var (f var) (P.df * dot P.n st.g st.g) (P.cf * dot P.n st.g st.g) fuel 1 st.p st.x none with ⟨st2, var2, e2⟩ | _ | _
      · rw [hr] at h
        dsimp only at h
        obtain ⟨t, ht, hta, hdec, hlen⟩ := hloop.2 _ hr
        have e1 : st2 = (accept P { st with d := st.g } t).1 := congrArg (fun r => r.1) ht
        have e2' : var2 = t.x := congrArg (fun r => r.2.1) ht
        by_cases hfin : (isTol P.n st2.g tol || isTol P.n st2.p tol) = true
        · rw [if_pos hfin] at h
          cases h
          exact Int.natCast_nonneg i
        · rw [if_neg hfin] at h
          simp only [updateNone] at h
          have hgain : gain P tol ≤ f var - f t.x := by
            refine le_trans ?_ hdec
            unfold gain
            have : min (stepMin * tol ^ 2) (P.scale * tol) ≤ t.a * dot P.n st.g st.g := by
              rcases hlen with hl | hl
              · refine (min_le_left _ _).trans ?_
                have h1 : tol ^ 2 ≤ dot P.n st.g st.g := le_trans (by gcongr) hs2
                exact mul_le_mul hl h1 (by positivity) hta.le
              · refine (min_le_right _ _).trans ?_
                have hl' : t.a * absMax P.n st.g = P.scale := hl
                rw [← hl']
                have : absMax P.n st.g * tol ≤ dot P.n st.g st.g := by
                  refine le_trans ?_ hs2
                  rw [pow_two]
                  exact mul_le_mul_of_nonneg_left hM.le (le_trans htol.le hM.le)
                rw [mul_assoc]
                exact mul_le_mul_of_nonneg_left this hta.le
            calc P.df * min (stepMin * tol ^ 2) (P.scale * tol) ≤ P.df * (t.a * dot P.n st.g st.g) := mul_le_mul_of_nonneg_left this hP.df
              _ = t.a * (P.df * dot P.n st.g st.g) := by ring
          have hnt2 : ¬ isTol P.n st2.g tol = true := fun hc => hfin (by rw [hc, Bool.true_or])
          have hg2 : st2.g = P.grad var2 := by rw [e1, e2']; rfl
          have hev : e2 = P.eval var2 := (stepNoc_ok P hP fuel _ _ _ _ _ _ (estep.trans hr)).2.2.1
          rw [hev] at h
          refine ih (i+1) _ var2 R ?_ ?_ ?_ h
          · split <;> exact hg2
          · split <;> exact hnt2
          · push_cast at hlt
            rw [e2']
            linarith
      · exact absurd hr hloop.1
      · rw [hr] at h; simp at h
  unfold zOptDMSolve at h
  dsimp only at h
  split at h
  · cases h; exact le_rfl
  · rename_i h0
    exact main _ 0 _ var R rfl h0 hiter h

/-- The hypotheses are met by `x^2/2` apart from the bound of the gradient, which `zTOL = 0` makes void. -/
example : ∃ (P : Prob ℚ) (f : (Nat → ℚ) → ℚ), Sane P ∧ P.ztol < stepMin ∧ 0 < P.n ∧ (∀ x, P.eval x = some (f x)) ∧ (∀ x, 0 ≤ f x) ∧
    (1 : ℚ) * stepMin ≤ 1 - P.df ∧ P.df < 1 ∧ (∀ x, P.ztol * absMax P.n (P.grad x) < P.scale) ∧
    (∀ x a, 0 ≤ a → f (fun i => x i + -a * P.grad x i) ≤ f x - a * dot P.n (P.grad x) (P.grad x) + 1 / 2 * a ^ 2 * dot P.n (P.grad x) (P.grad x)) ∧
    f (fun _ => 1) - 0 < (OneD.iterInit (60000000000 : Int) : ℚ) * gain P (1 / 100) := by
  refine ⟨{ half with ztol := 0 }, fun x => x 0 ^ 2 / 2, ⟨by norm_num [half], le_rfl, by norm_num, by norm_num [half]⟩, by norm_num [stepMin], by simp [half],
    fun _ => rfl, fun x => by positivity, by norm_num [stepMin, half], by norm_num [half], fun x => by norm_num [half], fun x a _ => ?_, ?_⟩
  · simp only [half, dot, Finset.sum_range_one, if_true]
    apply le_of_eq; ring
  · have : OneD.iterInit (60000000000 : Int) = 60000000000 := by decide
    rw [this]
    norm_num [gain, half, stepMin]

/-! ## Numerical derivatives -/

theorem set1_set1 (v : Nat → K) (i : Nat) (a b : K) : set1 (set1 v i a) i b = set1 v i b := by
  funext j; simp only [set1]; split <;> rfl

theorem set1_self (v : Nat → K) (i : Nat) : set1 v i (v i) = v := by
  funext j; simp only [set1]; split
  · rename_i h; rw [h]
  · rfl

/-- **C133.** The point is restored, and every entry of the numerical gradient is the central difference. -/
theorem gradNG_spec (eps : K) (n : Nat) (f : (Nat → K) → K) (var g : Nat → K) :
    (gradNG eps n f var g).1 = var ∧ ∀ i, i < n →
      (gradNG eps n f var g).2 i = (f (set1 var i (var i + eps)) - f (set1 var i (var i - eps))) / (2 * eps) := by
  have := forUp_inv (lo := 0) (hi := n) (fun i (st : (Nat → K) × (Nat → K)) =>
    let org := st.1 i
    let v1 := set1 st.1 i (org + eps)
    let adv := f v1
    let v2 := set1 v1 i (org - eps)
    let prv := f v2
    (set1 v2 i org, set1 st.2 i ((1/2) * (adv - prv) / eps))) (var, g)
    (fun k st => st.1 = var ∧ ∀ i, i < k → st.2 i = (f (set1 var i (var i + eps)) - f (set1 var i (var i - eps))) / (2 * eps)) (Nat.zero_le _)
    ⟨rfl, by omega⟩ (by
      rintro k ⟨v, g⟩ _ _ ⟨h1, h2⟩
      dsimp only at h1 h2 ⊢
      subst h1
      refine ⟨by rw [set1_set1, set1_set1, set1_self], fun i hi => ?_⟩
      by_cases hik : i = k
      · subst hik
        rw [set1_same, set1_set1]
        rw [div_mul_eq_div_div]; ring
      · rw [set1_ne _ _ hik]; exact h2 i (by omega))
  exact this

/-- **C133.** The same for the Hessian matrix from the gradient. -/
theorem hessNG_spec (eps : K) (n : Nat) (grad : (Nat → K) → Nat → K) (var : Nat → K) (h : Nat → Nat → K) :
    (hessNG eps n grad var h).1 = var ∧ ∀ i j, i < n → j < n →
      (hessNG eps n grad var h).2 i j = (grad (set1 var i (var i + eps)) j - grad (set1 var i (var i - eps)) j) / (2 * eps) := by
  have := forUp_inv (lo := 0) (hi := n) (fun i (st : (Nat → K) × (Nat → Nat → K)) =>
    let org := st.1 i
    let v1 := set1 st.1 i (org + eps)
    let adg := grad v1
    let v2 := set1 v1 i (org - eps)
    let prg := grad v2
    (set1 v2 i org, forUp 0 n (fun j h => set2 h i j (adg j - prg j)) st.2)) (var, h)
    (fun k st => st.1 = var ∧ ∀ i j, i < k → j < n → st.2 i j = grad (set1 var i (var i + eps)) j - grad (set1 var i (var i - eps)) j) (Nat.zero_le _)
    ⟨rfl, by omega⟩ (by
      rintro k ⟨v, h⟩ _ _ ⟨h1, h2⟩
      dsimp only at h1 h2 ⊢
      subst h1
      refine ⟨by rw [set1_set1, set1_set1, set1_self], fun i j hi hj => ?_⟩
      rw [set1_set1]
      rw [forUp_row (lo := 0) (hi := n) k (fun j _ => grad (set1 v k (v k + eps)) j - grad (set1 v k (v k - eps)) j) h
        (fun j => grad (set1 v k (v k + eps)) j - grad (set1 v k (v k - eps)) j) (fun _ _ _ _ _ => rfl)]
      beta_reduce
      by_cases hik : i = k
      · rw [if_pos ⟨hik, Nat.zero_le _, hj⟩, hik]
      · rw [if_neg (fun h => hik h.1)]
        exact h2 i j (by omega) hj)
  refine ⟨this.1, fun i j hi hj => ?_⟩
  show _ * ((1/2) / eps) = _
  have e := this.2 i j hi hj
  rw [e, div_mul_eq_div_div]; ring

/-- The unit vector. -/
def unit (i : Nat) : Nat → K := fun k => if k = i then 1 else 0

theorem dot_unit (n i : Nat) (hi : i < n) (u : Nat → K) : dot n u (unit i) = u i := by
  simp only [dot, unit, mul_ite, mul_one, mul_zero]
  rw [Finset.sum_ite_eq', if_pos (mem_range.mpr hi)]

theorem set1_unit (v : Nat → K) (i : Nat) (e : K) : set1 v i (v i + e) = fun k => v k - (-e) * unit i k := by
  funext k
  simp only [set1, unit]
  split
  · rename_i h; rw [h]; ring
  · ring

/-- **C133.** The numerical gradient of a quadratic function is exact whatever the increment is. -/
theorem gradNG_quadratic (eps : K) (heps : eps ≠ 0) (n : Nat) (c : K) (b : Nat → K) (A : Nat → Nat → K) (hA : ∀ i j, i < n → j < n → A i j = A j i)
    (var g : Nat → K) (i : Nat) (hi : i < n) :
    (gradNG eps n (fun x => c + dot n b x + form n A x x / 2) var g).2 i = b i + dot n (A i) var := by
  rw [(gradNG_spec eps n _ var g).2 i hi]
  have hu : form n A (unit i) var = dot n (A i) var := by
    have : form n A (unit i) var = dot n (fun k => dot n (A k) var) (unit i) := dot_comm _ _ _
    rw [this, dot_unit n i hi]
  have key : ∀ e : K, c + dot n b (set1 var i (var i + e)) + form n A (set1 var i (var i + e)) (set1 var i (var i + e)) / 2
      = c + dot n b var + form n A var var / 2 + e * (b i + dot n (A i) var) + e ^ 2 * form n A (unit i) (unit i) / 2 := by
    intro e
    rw [set1_unit, dot_add_smul, form_sub_right, form_symm n A hA _ var, form_symm n A hA _ (unit i), form_sub_right, form_sub_right,
      form_symm n A hA var (unit i), hu, dot_unit n i hi]
    ring
  have k1 := key eps
  have k2 := key (-eps)
  rw [← sub_eq_add_neg] at k2
  rw [k1, k2]
  field_simp
  ring

/-- **C133.** The numerical Hessian matrix of a function with an affine gradient is exact. -/
theorem hessNG_affine (eps : K) (heps : eps ≠ 0) (n : Nat) (b : Nat → K) (A : Nat → Nat → K) (hA : ∀ i j, i < n → j < n → A i j = A j i)
    (var : Nat → K) (h : Nat → Nat → K) (i j : Nat) (hi : i < n) (hj : j < n) :
    (hessNG eps n (fun x k => b k + dot n (A k) x) var h).2 i j = A i j := by
  rw [(hessNG_spec eps n _ var h).2 i j hi hj]
  have key : ∀ e : K, dot n (A j) (set1 var i (var i + e)) = dot n (A j) var + e * A j i := by
    intro e
    rw [set1_unit, dot_add_smul, dot_unit n i hi]; ring
  have k2 := key (-eps)
  rw [← sub_eq_add_neg] at k2
  beta_reduce
  rw [key, k2, hA i j hi hj]
  field_simp
  ring

example : (gradNG (1 / 10 ^ 6 : ℚ) 2 (fun x => 1 + dot 2 (fun _ => 1) x + form 2 (fun _ _ => 1) x x / 2) (fun _ => 2) (fun _ => 0)).2 1 = 5 := by
  rw [gradNG_quadratic _ (by norm_num) 2 1 _ _ (fun _ _ _ _ => rfl) _ _ 1 (by omega)]
  norm_num [dot, Finset.sum_range_succ]

/-! ## Levenberg-Marquardt -/

/-- **C134.** The direction solves the equation with the Hessian matrix augmented by the square of the gradient. -/
theorem vecLM_direction (P : Prob K) (h0 : P.ztol = 0) (st st' : DM K) (hidx : PermOn P.n st.idx) (var : Nat → K) (h : vecLM P st var = .ok st') :
    ∀ i, i < P.n → dot P.n (P.hess var i) st'.d + dot P.n st.g st.g * st'.d i = st.g i := by
  unfold vecLM at h
  dsimp only at h
  rw [h0] at h
  rcases gaussSolveIdx_exact P.n st.idx hidx (addDiag P.n (P.hess var) (fun _ => inner P.n st.g st.g)) st.g st.d with ⟨x, idx', e, -, hx⟩ | ⟨e, -⟩
  · rw [e] at h
    rcases hg : gaussLeaves 0 P.n st.idx (addDiag P.n (P.hess var) (fun _ => inner P.n st.g st.g)) st.g with gs | _ | _
    · rw [hg] at h
      cases h
      intro i hi
      have := hx i hi
      rw [← this]
      simp only [smul_eq_mul, addDiag_spec, inner_dot]
      have e2 : ∀ j ∈ range P.n, (if i = j ∧ i < P.n then P.hess var i j + dot P.n st.g st.g else P.hess var i j) * x j
          = P.hess var i j * x j + (if i = j then dot P.n st.g st.g * x j else 0) := by
        intro j _
        by_cases hij : i = j
        · rw [if_pos ⟨hij, hi⟩, if_pos hij]; ring
        · rw [if_neg (fun h => hij h.1), if_neg hij]; ring
      rw [Finset.sum_congr rfl e2, Finset.sum_add_distrib, Finset.sum_ite_eq, if_pos (mem_range.mpr hi)]
      rfl
    · rw [hg] at h; simp at h
    · rw [hg] at h; simp at h
  · rw [e] at h; simp at h

/-- A convex quadratic function with a narrow valley. -/
def valley : Prob ℚ :=
  { n := 2, eval := fun x => some ((x 0 ^ 2 + 2 * x 0 * x 1 + (1 + 1 / 10 ^ 5) * x 1 ^ 2) / 2),
    grad := fun x i => if i = 0 then x 0 + x 1 else x 0 + (1 + 1 / 10 ^ 5) * x 1,
    hess := fun _ i j => if i = 1 ∧ j = 1 then 1 + 1 / 10 ^ 5 else 1,
    scale := 1000, ztol := 1 / 10 ^ 12, df := 1 / 10000, cf := 9 / 10 }

/-- The first point. -/
def valley0 : Nat → ℚ := fun i => if i = 0 then -1 / 1000 else 1 / 1000

/-- **C134, violated.** The solver of the linear equation destroys the gradient that the line search needs: the method
of Levenberg and Marquardt with Nocedal's search fails at once in a narrow valley of a convex quadratic function. -/
theorem zOptDMSolve_LM_violated :
    (match zOptDMSolve valley (vecLM valley) (stepNoc valley 20) (updateNone 2) (1 / 10 ^ 12) 0 created valley0 with
      | .ok R => decide (R.ret = -1 ∧ R.var 0 = -1 / 1000 ∧ R.var 1 = 1 / 1000) | _ => false) = true := by
  decide +kernel

/-- The same search along the same direction reaches the minimum when the gradient is intact. -/
theorem stepNoc_LM_intact : (match vecLM valley (started valley created valley0) valley0 with
      | .ok st => (match stepNoc valley 20 { st with g := valley.grad valley0 } valley0 (valley.eval valley0) with
        | .ok r => decide (|r.2.1 0| < 1 / 10 ^ 9 ∧ |r.2.1 1| < 1 / 10 ^ 9) | _ => false)
      | _ => false) = true := by
  decide +kernel

end Zm.OptDM
