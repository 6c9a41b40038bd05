import Verif.Props.LP

set_option linter.unusedSectionVars false
set_option linter.unusedVariables false

/-! # The simplex method: absence of undefined behaviour -/

namespace Zm.LP
open Zm
variable {K : Type*} [Field K] [LinearOrder K] [IsStrictOrderedRing K]

theorem findNA_ok {tst : Tst K} {t : Tab K} (h : t.nb ≠ []) : ∃ o, findNA tst t = .ok o := by
  unfold findNA
  cases hnb : t.nb with
  | nil => exact absurd hnb h
  | cons v l => exact ⟨_, rfl⟩

theorem sweepA_nb {t t' : Tab K} {np na : Nat} (h : sweepA t np na = .ok t') : t'.nb = t.nb := by
  unfold sweepA at h
  dsimp only at h
  split_ifs at h
  cases h
  rfl

theorem simplexLoop_no_ub {N : Nat} {tst : Tst K} (hg : tst.Good) (k : Nat) : ∀ {t : Tab K}, Wf N t → Reduced t → t.nb ≠ [] → simplexLoop tst k t ≠ .ub := by
  induction k with
  | zero =>
    intro t h hred hnb
    obtain ⟨o, e⟩ := findNA_ok (tst := tst) hnb
    unfold simplexLoop
    rw [e]
    cases o <;> simp
  | succ k ih =>
    intro t h hred hnb
    obtain ⟨o, e⟩ := findNA_ok (tst := tst) hnb
    unfold simplexLoop
    rw [e]
    cases o with
    | none => simp
    | some na =>
      dsimp only
      obtain ⟨na', c0, hna, hc0, -, ho⟩ := findNA_spec e
      have hneg : tst.neg c0 = true := by
        by_contra hh
        rw [if_neg hh] at ho
        simp at ho
      rw [if_pos hneg, Option.some.injEq] at ho
      subst ho
      cases hp : findNP tst t na with
      | mk o na' =>
        cases o with
        | none => simp
        | some np =>
          dsimp only
          obtain ⟨p1, p2, p3, p4, p5⟩ := findNP_spec hg hna (hc0 ▸ hneg) hp
          obtain ⟨t1, e1, w1, r1, -, -⟩ := step_spec h hred p1 p2 (hg.pos _ p4).ne'
          rw [e1]
          refine ih w1 r1 ?_
          show t1.nb.set na' _ ≠ []
          rw [sweepA_nb e1]
          intro hh
          rw [List.set_eq_nil_iff] at hh
          exact hnb hh

/-- C56: the simplex method on a tableau with a variable that is not basic divides by no zero and reads nothing that is not there. -/
theorem zLPTableauSimplex_no_ub {N M : Nat} {tst : Tst K} (hg : tst.Good) {t : Tab K} (h : Wf N t) (hnb : t.nb ≠ []) : zLPTableauSimplex tst M t ≠ .ub := by
  unfold zLPTableauSimplex
  obtain ⟨w, rd, q, ea, eb, eib, enb⟩ := sweepC_spec h
  exact simplexLoop_no_ub hg _ w rd (by rw [enb]; exact hnb)

theorem phase1_no_ub {tst : Tst K} (hg : tst.Good) {m n : Nat} (hn : 0 < n) (A : Nat → Nat → K) (b : Nat → K) : phase1 tst m n A b ≠ .ub := by
  unfold phase1
  have := zLPTableauSimplex_no_ub (M := n + m) hg (create_wf m n A b) (by
    show List.range n ≠ []
    intro h
    rw [List.range_eq_nil] at h
    omega)
  cases h : zLPTableauSimplex tst (n + m) (zLPTableauCreate m n A b) with
  | ub => exact absurd h this
  | fail => simp
  | ok t => dsimp only; split_ifs <;> simp

theorem findBaseLoop_no_ub {tst : Tst K} (htn : ∀ x, tst.tiny x = false → x ≠ 0) (htz : ∀ x, tst.tiny x = true → x = 0) {m n : Nat} {t0 : Tab K} (hfull : FullRank m n t0.a) (k : Nat) :
    ∀ (i : Nat) (t : Tab K), FB m n t0 t → i + k = m → (∀ l < i, t.ib l < n) → ∃ t', findBaseLoop tst n k i t = .ok t' := by
  induction k with
  | zero => intro i t _ _ _; exact ⟨t, rfl⟩
  | succ k ih =>
    intro i t h hi hib
    have him : i < m := by omega
    have hir : i < t.r := by rw [h.r]; exact him
    unfold findBaseLoop
    rw [if_neg (by omega)]
    by_cases hlt : t.ib i < n
    · rw [if_pos hlt]
      exact ih (i + 1) t h (by omega) (by intro l hl; by_cases hli : l = i; (· subst hli; exact hlt); exact hib l (by omega))
    · rw [if_neg hlt]
      cases hf : t.nb.findIdx? (fun v => decide (v < n) && !tst.tiny (t.a i v)) with
      | none =>
        exfalso
        rw [List.findIdx?_eq_none_iff] at hf
        have hzero : ∀ j < n, t.a i j = 0 := by
          intro j hj
          rcases h.wf.cover j (by omega) with hm | ⟨l, hl, e⟩
          · have := hf j hm
            simp only [hj, decide_true, Bool.true_and, Bool.not_eq_false'] at this
            exact htz _ this
          · have := h.wf.unit i hir l hl
            rw [h.ir] at this
            rw [← e, this, if_neg (by rintro rfl; omega)]
        have hcomb : ∀ j < n, ∑ k ∈ Finset.range m, t.a i (n + k) * t0.a k j = 0 := by
          intro j hj
          have := h.rel i hir j hj
          rw [h.ir, hzero j hj] at this
          exact this.symm
        have hz := hfull (fun k => t.a i (n + k)) hcomb (t.ib i - n) (by have := h.wf.ib_lt i hir; omega)
        have h1 := h.wf.unit i hir i hir
        rw [h.ir, if_pos rfl] at h1
        rw [show n + (t.ib i - n) = t.ib i by omega, h1] at hz
        exact one_ne_zero hz
      | some j =>
        dsimp only
        rw [List.findIdx?_eq_some_iff_getElem] at hf
        obtain ⟨hj, hf, -⟩ := hf
        simp only [Bool.and_eq_true, decide_eq_true_eq, Bool.not_eq_true'] at hf
        rw [← List.getD_eq_getElem _ 0 hj] at hf
        have hap : t.a (t.ir i) (t.nb.getD j 0) ≠ 0 := by rw [h.ir]; exact htn _ hf.2
        obtain ⟨t1, e1, f1, ib1, b1⟩ := findBase_pivot h hir hj hap
        unfold pivot at e1
        cases hA : sweepA t i j with
        | ok t2 =>
          rw [hA] at e1
          simp only [Res.ok.injEq] at e1
          dsimp only
          rw [e1]
          refine ih (i + 1) t1 f1 (by omega) ?_
          intro l hl
          rw [ib1]
          by_cases hli : l = i
          · rw [hli, set1_same]; exact hf.1
          · rw [set1_ne _ _ hli]; exact hib l (by omega)
        | fail => rw [hA] at e1; simp at e1
        | ub => rw [hA] at e1; simp at e1

theorem create_fullRank {m n : Nat} {A : Nat → Nat → K} (b : Nat → K) (hA : FullRank m n A) : FullRank m n (zLPTableauCreate m n A b).a := by
  intro y hy k hk
  have := hA (fun k => if b k ≥ 0 then y k else - y k) ?_ k hk
  · beta_reduce at this
    split_ifs at this
    · exact this
    · exact neg_eq_zero.1 this
  · intro j hj
    refine (Finset.sum_congr rfl fun k _ => ?_).trans (hy j hj)
    show _ = y k * (if j < n then (if b k ≥ 0 then A k j else - A k j) else _)
    rw [if_pos hj]
    split_ifs <;> ring

/-- After a successful first phase the second phase can be started, if the rows are independent. -/
theorem phase2Start_ok {m n : Nat} {A : Nat → Nat → K} {b c : Nat → K} (hA : FullRank m n A) {t1 : Tab K} (h1 : phase1 Tst.exact m n A b = .ok t1) :
    ∃ t, phase2Start Tst.exact m n A b c = .ok t := by
  obtain ⟨w, rd, q, rel, ht, hf⟩ := phase1_spec Tst.exact_good h1
  have hr1 : t1.r = m := q.r
  have hfb : FB m n (zLPTableauCreate m n A b) { t1 with d := 0 } :=
    ⟨⟨w.ib_lt, w.nb_lt, w.ib_inj, w.nb_nodup, w.disj, w.cover, w.ir_inj, w.unit⟩, q.sys, rel, q.r, by intro i; show t1.ir i = i; rw [q.ir]; rfl, rfl⟩
  obtain ⟨t2, e2⟩ := findBaseLoop_no_ub (tst := Tst.exact) (by intro x hx; simpa [Tst.exact] using hx) (by intro x hx; simpa [Tst.exact] using hx)
    (create_fullRank b hA) m 0 _ hfb (by omega) (by intro l hl; omega)
  unfold phase2Start
  rw [h1]
  dsimp only
  unfold zLPTableauFindBase
  have e3 : findBaseLoop Tst.exact n t1.r 0 { t1 with d := 0 } = .ok t2 := by rw [← e2]; congr 1
  rw [e3]
  exact ⟨_, rfl⟩

theorem phase2Start_no_ub {m n : Nat} {A : Nat → Nat → K} {b c : Nat → K} (hn : 0 < n) (hA : FullRank m n A) : phase2Start Tst.exact m n A b c ≠ .ub := by
  cases h1 : phase1 Tst.exact m n A b with
  | ub => exact absurd h1 (phase1_no_ub Tst.exact_good hn A b)
  | fail => unfold phase2Start; rw [h1]; simp
  | ok t1 =>
    obtain ⟨t, e⟩ := phase2Start_ok (c := c) hA h1
    rw [e]; simp

/-- C56, `zLPSolveSimplex` for independent equations, fewer than variables, without a tolerance: no division by zero, no access outside of the
arrays. -/
theorem zLPSolveSimplex_no_ub_partial (m n : Nat) (A : Nat → Nat → K) (b c : Nat → K) (hmn : m < n) (hA : FullRank m n A) : zLPSolveSimplex Tst.exact m n A b c ≠ .ub := by
  unfold zLPSolveSimplex
  cases h1 : phase2Start Tst.exact m n A b c with
  | ub => exact absurd h1 (phase2Start_no_ub (by omega) hA)
  | fail => simp
  | ok t =>
    dsimp only
    obtain ⟨w, hr, hir, -, -, -⟩ := phase2_spec Tst.exact_good (by intro x hx; simpa [Tst.exact] using hx) h1
      (Or.inl ⟨by intro x hx; simpa [Tst.exact] using hx, hA⟩)
    have hnb : t.nb ≠ [] := by
      intro hnil
      -- all variables would be basic
      have hsub : Finset.range n ⊆ (Finset.range t.r).image t.ib := by
        intro v hv
        rcases w.cover v (Finset.mem_range.1 hv) with hm | ⟨i, hi, e⟩
        · rw [hnil] at hm; simp at hm
        · exact Finset.mem_image.2 ⟨i, Finset.mem_range.2 hi, e⟩
      have := (Finset.card_le_card hsub).trans Finset.card_image_le
      rw [Finset.card_range, Finset.card_range] at this
      omega
    cases h2 : zLPTableauSimplex Tst.exact (n + m) t with
    | ub => exact absurd h2 (zLPTableauSimplex_no_ub Tst.exact_good w hnb)
    | fail => simp
    | ok t2 =>
      dsimp only
      obtain ⟨w2, -, q2, -, -⟩ := simplex_spec Tst.exact_good w h2
      obtain ⟨x, e, -⟩ := tableauAns_spec w2 (by intro i; rw [q2.ir]; exact hir i)
      rw [e]
      simp

example : zLPSolveSimplex (Tst.exact : Tst ℚ) 1 2 (fun _ _ => 1) (fun _ => 1) (fun _ => 1) ≠ .ub := by
  refine zLPSolveSimplex_no_ub_partial 1 2 _ _ _ (by omega) ?_
  intro y hy k hk
  have : k = 0 := by omega
  subst this
  simpa using hy 0 (by omega)

end Zm.LP
