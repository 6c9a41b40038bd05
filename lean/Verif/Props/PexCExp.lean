import Verif.Model.PexCExp
import Verif.Props.Pex
import Verif.Props.Complex

/-! # C221: expansion of complex factors -/

set_option linter.unusedSectionVars false

namespace Zm.Pex
open Zm Finset Polynomial

/-- The polynomial with the given roots, each as often as it is in the list. -/
noncomputable def rootsPoly (v : List ℂ) : ℂ[X] := (v.map fun z => X - C z).prod

theorem rootsPoly_perm {v w : List ℂ} (h : v.Perm w) : rootsPoly v = rootsPoly w := (h.map _).prod_eq

/-- A conjugate pair, expanded. -/
theorem quad_map (a : ℂ) : (X ^ 2 - C (2 * a.re) * X + C (a.re * a.re + a.im * a.im) : ℝ[X]).map Complex.ofRealHom = (X - C a) * (X - C (starRingEnd ℂ a)) := by
  have h1 : ((2 * a.re : ℝ) : ℂ) = a + starRingEnd ℂ a := by rw [Complex.add_conj]
  have h2 : ((a.re * a.re + a.im * a.im : ℝ) : ℂ) = a * starRingEnd ℂ a := by rw [Complex.mul_conj, Complex.normSq_apply]
  simp only [Polynomial.map_add, Polynomial.map_sub, Polynomial.map_mul, Polynomial.map_pow, map_X, map_C, Complex.ofRealHom_eq_coe]
  rw [h1, h2, C_add, C_mul]
  ring

/-- Neighbours are exact conjugates. -/
def ExactPairs : List ℂ → Prop
  | [] => True
  | [_] => False
  | a :: b :: l => b = starRingEnd ℂ a ∧ ExactPairs l

theorem pairs_prod : ∀ (m : Nat) (w : List ℂ), w.length = 2 * m → ExactPairs w →
    (∏ i ∈ range m, (X ^ 2 - C (2 * (w.getD (2*i) 0).re) * X + C ((w.getD (2*i) 0).re * (w.getD (2*i) 0).re + (w.getD (2*i) 0).im * (w.getD (2*i) 0).im) : ℝ[X])).map Complex.ofRealHom
      = rootsPoly w := by
  intro m
  induction m with
  | zero =>
    intro w hw _
    rw [List.length_eq_zero_iff.1 (by omega : w.length = 0)]
    simp [rootsPoly]
  | succ m ih =>
    intro w hw hp
    match w, hw, hp with
    | a :: b :: l, hw, hp =>
      obtain ⟨rfl, hp⟩ := hp
      have hl : l.length = 2 * m := by simp at hw; omega
      rw [prod_range_succ', Polynomial.map_mul]
      have e : ∀ i, (a :: starRingEnd ℂ a :: l).getD (2 * (i+1)) 0 = l.getD (2 * i) 0 := by
        intro i
        rw [show 2 * (i+1) = 2 * i + 1 + 1 by ring]
        rfl
      simp only [e]
      rw [ih l hl hp]
      simp only [mul_zero, List.getD_cons_zero]
      rw [quad_map]
      unfold rootsPoly
      simp only [List.map_cons, List.prod_cons]
      ring

theorem paired_even (tol : ℝ) : ∀ w : List ℂ, Cplx.Paired tol w → ∃ m, w.length = 2 * m
  | [], _ => ⟨0, rfl⟩
  | [_], h => by cases h
  | a :: b :: l, h => by
    obtain ⟨m, hm⟩ := paired_even tol l h.2
    exact ⟨m+1, by simp [hm]; ring⟩

theorem paired_exact (tol : ℝ) : ∀ w : List ℂ, Cplx.Paired tol w → (∀ a ∈ w, ∀ b ∈ w, Cplx.zComplexCoconj a b tol = true ↔ b = starRingEnd ℂ a) → ExactPairs w
  | [], _, _ => trivial
  | [_], h, _ => by cases h
  | a :: b :: l, h, hx => ⟨(hx a (by simp) b (by simp)).1 h.1, paired_exact tol l h.2 fun c hc d hd => hx c (by simp [hc]) d (by simp [hd])⟩

theorem reals_prod : ∀ r : List ℝ, ∏ i ∈ range r.length, (X - C (r.getD i 0) : ℝ[X]) = (r.map fun a => X - C a).prod
  | [] => by simp
  | a :: r => by
    rw [List.length_cons, prod_range_succ']
    simp only [List.getD_cons_succ, List.getD_cons_zero, List.map_cons, List.prod_cons]
    rw [reals_prod r, mul_comm]

/-- The factors of one kind, and no polynomial if there are none. -/
def Expanded (p : Option (Pex ℝ)) (empty : Prop) (q : ℂ[X]) : Prop :=
  match p with
  | none => empty ∧ q = 1
  | some p => ¬ empty ∧ (toPoly p).map Complex.ofRealHom = q ∧ q ≠ 0

theorem rootsPoly_ne (v : List ℂ) : rootsPoly v ≠ 0 := by
  unfold rootsPoly
  rw [Ne, List.prod_eq_zero_iff]
  intro h
  obtain ⟨z, -, hz⟩ := List.mem_map.1 h
  exact X_sub_C_ne_zero z hz

theorem expRe_spec (r : List ℝ) : ∃ p, expRe true r = .ok p ∧ Expanded p (r = []) (rootsPoly (r.map Complex.ofReal)) := by
  unfold expRe
  by_cases h : r = []
  · rw [if_pos h]
    exact ⟨none, rfl, h, by simp [h, rootsPoly]⟩
  · rw [if_neg h]
    obtain ⟨p, b, e, hp, -⟩ := zPexExpGo_spec r.length r.length (fun i => r.getD i 0) (List.length_pos_of_ne_nil h) le_rfl
    rw [e]
    refine ⟨some p, rfl, h, ?_, rootsPoly_ne _⟩
    rw [hp, reals_prod, Polynomial.map_list_prod, List.map_map, rootsPoly, List.map_map]
    congr 1
    apply List.map_congr_left
    intro a _
    simp

theorem expIm_spec (w : List ℂ) (m : Nat) (hm : w.length = 2 * m) (hw : ExactPairs w) : ∃ p, expIm true w = .ok p ∧ Expanded p (w = []) (rootsPoly w) := by
  unfold expIm
  by_cases h : w = []
  · rw [if_pos h]
    exact ⟨none, rfl, h, by simp [h, rootsPoly]⟩
  · rw [if_neg h]
    have := List.length_pos_of_ne_nil h
    obtain ⟨p, b, e, hp, -⟩ := zPexExpIm_correct_partial w.length m (fun i => ((w.getD i 0).re, (w.getD i 0).im)) (by omega) (by omega)
    rw [← hm] at e
    rw [e]
    refine ⟨some p, rfl, h, ?_, rootsPoly_ne _⟩
    rw [hp]
    exact pairs_prod m w hm hw

/-- **C221 (with an upward-copying `memcpy`).** If the factors that are not real are made of conjugate pairs in whatever order, and the tolerance tells the factors apart, the result is the
real polynomial that has exactly the given factors, each as often as it is given, and no other vector is left behind. -/
theorem zPexCExp_correct_partial (tol : ℝ) (v : List ℂ) (hv : v ≠ []) (hr : ∀ z ∈ v, |z.im| ≤ tol → z.im = 0)
    (hc : Cplx.Conjugate (v.filter fun z => !decide (|z.im| ≤ tol)))
    (hex : ∀ a ∈ v, ∀ b ∈ v, tol < |a.im| → tol < |b.im| → (Cplx.zComplexCoconj a b tol = true ↔ b = starRingEnd ℂ a)) :
    ∃ p, zPexCExp true tol v = .ok (some p, 0) ∧ (toPoly p).map Complex.ofRealHom = (v.map fun z => X - C z).prod := by
  set re := v.filter fun z => decide (|z.im| ≤ tol) with hre
  set im := v.filter fun z => !decide (|z.im| ≤ tol) with him
  have hperm : (re ++ im).Perm v := List.filter_append_perm _ v
  have hexi : ∀ a ∈ im, ∀ b ∈ im, (Cplx.zComplexCoconj a b tol = true ↔ b = starRingEnd ℂ a) := by
    intro a ha b hb
    rw [him, List.mem_filter] at ha hb
    exact hex a ha.1 b hb.1 (by simpa using ha.2) (by simpa using hb.2)
  have hne : ¬ (re = [] ∧ im = []) := by
    rintro ⟨h1, h2⟩
    rw [h1, h2] at hperm
    exact hv (List.nil_perm.1 hperm)
  have hsplit : ∃ w, Cplx.zCVecToReImVec tol v = .ok (re.map Complex.re, w) := by
    unfold Cplx.zCVecToReImVec
    dsimp only
    rw [← hre, ← him, if_neg hne]
    by_cases h : im = []
    · rw [if_pos h]; exact ⟨[], rfl⟩
    · rw [if_neg h]
      obtain ⟨w, hw⟩ := Cplx.zCVecConjPair_complete tol im hc hexi
      rw [hw]
      exact ⟨w, rfl⟩
  obtain ⟨w, hw⟩ := hsplit
  obtain ⟨-, hpw, hpair⟩ := Cplx.zCVecToReImVec_spec tol v _ w hw
  rw [← him] at hpw
  obtain ⟨m, hm⟩ := paired_even tol w hpair
  have hexact := paired_exact tol w hpair fun a ha b hb => hexi a (hpw.symm.subset ha) b (hpw.symm.subset hb)
  obtain ⟨pr, er, hpr⟩ := expRe_spec (re.map Complex.re)
  obtain ⟨pc, ec, hpc⟩ := expIm_spec w m hm hexact
  have hrr : (re.map Complex.re).map Complex.ofReal = re := by
    rw [List.map_map]
    conv_rhs => rw [← List.map_id re]
    apply List.map_congr_left
    intro z hz
    rw [hre, List.mem_filter] at hz
    exact Complex.ext rfl (hr z hz.1 (by simpa using hz.2)).symm
  rw [hrr] at hpr
  have hroots : rootsPoly v = rootsPoly re * rootsPoly w := by
    rw [← rootsPoly_perm hperm, ← rootsPoly_perm hpw]
    unfold rootsPoly
    rw [List.map_append, List.prod_append]
  have hjoin : ∃ p, joinFactors pr pc = .ok (some p) ∧ (toPoly p).map Complex.ofRealHom = rootsPoly v := by
    match pr, pc, hpr, hpc with
    | none, none, h1, h2 =>
      exfalso
      have a : re = [] := List.map_eq_nil_iff.1 h1.1
      refine hne ⟨a, ?_⟩
      rw [h2.1] at hpw
      exact List.perm_nil.1 hpw
    | none, some p, h1, h2 => exact ⟨p, rfl, by rw [hroots, h1.2, one_mul, h2.2.1]⟩
    | some p, none, h1, h2 => exact ⟨p, rfl, by rw [hroots, h2.2, mul_one, h1.2.1]⟩
    | some p, some q, h1, h2 =>
      have n1 : toPoly p ≠ 0 := fun h => h1.2.2 (by rw [← h1.2.1, h, Polynomial.map_zero])
      have n2 : toPoly q ≠ 0 := fun h => h2.2.2 (by rw [← h2.2.1, h, Polynomial.map_zero])
      obtain ⟨r, e, hrp, -⟩ := zPexMul_correct_partial p q n1 n2
      refine ⟨r, ?_, ?_⟩
      · simp only [joinFactors, e, Res.bind]
      · rw [hrp, Polynomial.map_mul, h1.2.1, h2.2.1, hroots]
  obtain ⟨p, ep, hp⟩ := hjoin
  refine ⟨p, ?_, hp⟩
  unfold zPexCExp
  rw [hw]
  dsimp only
  rw [er]
  simp only [Res.bind]
  rw [ec]
  dsimp only
  rw [ep]

/-- The hypotheses for the factors 1+2i, 3 and 1-2i. -/
example : ∃ p, zPexCExp true (1/10^7) [⟨1, 2⟩, ⟨3, 0⟩, ⟨1, -2⟩] = .ok (some p, 0) ∧
    (toPoly p).map Complex.ofRealHom = (([⟨1, 2⟩, ⟨3, 0⟩, ⟨1, -2⟩] : List ℂ).map fun z => X - C z).prod := by
  refine zPexCExp_correct_partial _ _ (by simp) ?_ ?_ ?_
  · intro z hz
    simp only [List.mem_cons, List.not_mem_nil, or_false] at hz
    rcases hz with rfl | rfl | rfl <;> intro h <;> first | (norm_num at h; done) | (norm_num at h ⊢)
  · refine ⟨[⟨1, 2⟩], ?_⟩
    have e : ([⟨1, 2⟩, ⟨3, 0⟩, ⟨1, -2⟩] : List ℂ).filter (fun z => !decide (|z.im| ≤ 1/10^7)) = [⟨1, 2⟩, ⟨1, -2⟩] := by norm_num [List.filter_cons]
    rw [e]
    exact List.Perm.of_eq rfl
  · intro a ha b hb h1 h2
    simp only [List.mem_cons, List.not_mem_nil, or_false] at ha hb
    rcases ha with rfl | rfl | rfl <;> rcases hb with rfl | rfl | rfl <;> first | (norm_num at h1; done) | (norm_num at h2; done) | (norm_num [Cplx.zComplexCoconj, Complex.ext_iff, Misc.zEqual, Misc.zIsTol] at h1 h2 ⊢)

/-- **C221, violated.** Factors that cannot be paired are an error, but the vectors they were sorted into are left behind, whatever the tolerance: so with a single factor that is not real
and any number of real ones. -/
theorem zPexCExp_leak_violated (fwd : Bool) (tol : ℝ) (z : ℂ) (hz : tol < |z.im|) (r : List ℝ) (htol : 0 ≤ tol) :
    zPexCExp fwd tol (z :: r.map Complex.ofReal) = .ok (none, if r = [] then 1 else 2) := by
  have h1 : (z :: r.map Complex.ofReal).filter (fun z => decide (|z.im| ≤ tol)) = r.map Complex.ofReal := by
    rw [List.filter_cons_of_neg (by simpa using hz), List.filter_eq_self]
    intro a ha
    obtain ⟨x, -, rfl⟩ := List.mem_map.1 ha
    simpa using htol
  have h2 : (z :: r.map Complex.ofReal).filter (fun z => !decide (|z.im| ≤ tol)) = [z] := by
    rw [List.filter_cons_of_pos (by simpa using hz)]
    congr 1
    rw [List.filter_eq_nil_iff]
    intro a ha
    obtain ⟨x, -, rfl⟩ := List.mem_map.1 ha
    simpa using htol
  have hs : Cplx.zCVecToReImVec tol (z :: r.map Complex.ofReal) = .fail := by
    unfold Cplx.zCVecToReImVec
    dsimp only
    rw [h1, h2, if_neg (by simp), if_neg (by simp)]
    rfl
  unfold zPexCExp
  rw [hs]
  dsimp only
  unfold reImBlocks
  rw [h1, h2]
  by_cases h : r = [] <;> simp [h]

end Zm.Pex
