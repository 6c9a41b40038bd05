import Verif.Props.PexEq
import Mathlib.Analysis.SpecialFunctions.Log.Summable

/-! # C129: polynomial equations by the method of Durand, Kerner and Aberth -/

set_option linter.unusedSectionVars false

namespace Zm.PexEq
open Zm Pex Cplx Finset Polynomial

noncomputable section

/-- The polynomial of `n+1` real coefficients, over the complex numbers. -/
def cpoly (n : Nat) (a : Nat → ℝ) : ℂ[X] := (poly (n+1) a).map (algebraMap ℝ ℂ)

theorem cval_eq (n : Nat) (a : Nat → ℝ) (z : ℂ) : zPexCVal { size := n+1, c := a } z = (cpoly n a).eval z := by
  rw [zPexCVal_correct _ (by simp)]; unfold cpoly; rw [eval_map_algebraMap]; rfl

theorem cpoly_natDegree (n : Nat) (a : Nat → ℝ) (h : a n ≠ 0) : (cpoly n a).natDegree = n := by
  unfold cpoly; rw [natDegree_map]; exact poly_natDegree n a h

theorem cpoly_coeff (n : Nat) (a : Nat → ℝ) (k : Nat) (hk : k ≤ n) : (cpoly n a).coeff k = a k := by
  unfold cpoly; rw [coeff_map, poly_coeff, if_pos (by omega)]; rfl

theorem cpoly_leading (n : Nat) (a : Nat → ℝ) (h : a n ≠ 0) : (cpoly n a).leadingCoeff = a n := by
  rw [leadingCoeff, cpoly_natDegree n a h, cpoly_coeff n a n le_rfl]

theorem cpoly_ne_zero (n : Nat) (a : Nat → ℝ) (h : a n ≠ 0) : cpoly n a ≠ 0 := by
  intro h0
  have := cpoly_leading n a h
  rw [h0, leadingCoeff_zero] at this; exact h (by exact_mod_cast this.symm)

/-- A number at which the polynomial is small is close to a root. -/
theorem root_near (A : ℂ[X]) (n : Nat) (hn : 0 < n) (hd : A.natDegree = n) (z : ℂ) (ε : ℝ) (hε : 0 ≤ ε)
    (h : ‖A.eval z‖ ≤ ‖A.leadingCoeff‖ * ε ^ n) : ∃ r, A.eval r = 0 ∧ ‖z - r‖ ≤ ε := by
  by_contra hc
  push Not at hc
  have hA : A ≠ 0 := by rintro rfl; simp at hd; omega
  have hsp := IsAlgClosed.splits A
  have hev : A.eval z = A.leadingCoeff * (A.roots.map fun r => z - r).prod := hsp.eval_eq_prod_roots z
  have hcard : A.roots.card = n := by rw [← hd]; exact hsp.natDegree_eq_card_roots.symm
  have hlt : ∀ (s : Multiset ℂ), (∀ r ∈ s, ε < ‖z - r‖) → 0 < s.card → ε ^ s.card < ‖(s.map fun r => z - r).prod‖ := by
    intro s
    induction s using Multiset.induction_on with
    | empty => intro _ h; simp at h
    | cons r s ih =>
      intro hr _
      have h1 := hr r (Multiset.mem_cons_self r s)
      rw [Multiset.map_cons, Multiset.prod_cons, Multiset.card_cons, norm_mul, pow_succ']
      rcases Nat.eq_zero_or_pos s.card with h0 | h0
      · rw [Multiset.card_eq_zero] at h0; subst h0; simpa using h1
      · have := ih (fun r hr' => hr r (Multiset.mem_cons_of_mem hr')) h0
        calc ε * ε ^ s.card ≤ ε * ‖(s.map fun r => z - r).prod‖ := mul_le_mul_of_nonneg_left this.le hε
          _ < _ := mul_lt_mul_of_pos_right h1 (lt_of_le_of_lt (pow_nonneg hε _) this)
  have := hlt A.roots (fun r hr => hc r (by rw [mem_roots hA] at hr; exact hr)) (by omega)
  rw [hcard] at this
  rw [hev, norm_mul] at h
  have hl : 0 < ‖A.leadingCoeff‖ := norm_pos_iff.2 (leadingCoeff_ne_zero.2 hA)
  exact absurd (le_of_mul_le_mul_left h hl) (not_le.2 this)

theorem dkaLoop_small (tolz tol : ℝ) (n : Nat) (a : Nat → ℝ) : ∀ (k : Nat) (z z' : Nat → ℂ), dkaLoop tolz tol n a k z = .ok (z', false) →
    ∀ i, i < n → |((cpoly n a).eval (z' i)).re| ≤ tol ∧ |((cpoly n a).eval (z' i)).im| ≤ tol := by
  intro k
  induction k with
  | zero => intro z z' h; simp [dkaLoop] at h
  | succ k ih =>
    intro z z' h
    unfold dkaLoop at h
    dsimp only at h
    split_ifs at h with ht
    · simp only [Res.ok.injEq, Prod.mk.injEq, and_true] at h
      subst h
      intro i hi
      have := ht i hi
      rw [cval_eq] at this
      exact this
    · cases hs : dkaStep tolz (a n) n z (fun i => zPexCVal { size := n+1, c := a } (z i)) with
      | ub => rw [hs] at h; exact absurd h (by simp [Res.bind])
      | fail => rw [hs] at h; exact absurd h (by simp [Res.bind])
      | ok z1 => rw [hs] at h; exact ih _ _ h

/-- C129: whenever `zPexDKA` ends without a warning, each answer is, up to a touch-up by `zTOL` in each part relative to the other one (or to one), a
number at which both parts of the polynomial are within the tolerance, and close to a root of the polynomial. -/
theorem zPexDKA_partial (tolz : ℝ) (hz : 0 ≤ tolz) (n : Nat) (hn : 0 < n) (a : Nat → ℝ) (ha : a n ≠ 0) (size : Nat) (ans ans' : Nat → ℂ) (tol : ℝ)
    (iter : Int) (h : zPexDKA tolz n a size ans tol iter = .ok (ans', false)) (T : ℝ) (hT : T = if tol = 0 then 10 ^ (-7 : ℤ) else tol) :
    ∀ i, i < n → ∃ z r : ℂ, |((cpoly n a).eval z).re| ≤ T ∧ |((cpoly n a).eval z).im| ≤ T ∧
      (cpoly n a).eval r = 0 ∧ ‖z - r‖ ≤ (2 * T / |a n|) ^ (1 / (n : ℝ)) ∧
      |(ans' i).re - z.re| ≤ tolz * max 1 |z.im| ∧ |(ans' i).im - z.im| ≤ tolz * max 1 |z.re| := by
  unfold zPexDKA at h
  by_cases hs : n > size
  · rw [if_pos hs] at h; exact absurd h (by simp)
  rw [if_neg hs] at h
  cases hb : dkaInit n a ans with
  | ub => rw [hb] at h; exact absurd h (by simp [Res.bind])
  | fail => rw [hb] at h; exact absurd h (by simp [Res.bind])
  | ok z0 =>
    rw [hb] at h
    simp only [Res.bind] at h
    cases hl : dkaLoop tolz (useTol tol) n a (iterInit iter) z0 with
    | ub => rw [hl] at h; exact absurd h (by simp)
    | fail => rw [hl] at h; exact absurd h (by simp)
    | ok r =>
      obtain ⟨z, w⟩ := r
      rw [hl] at h
      simp only [Res.ok.injEq, Prod.mk.injEq] at h
      obtain ⟨rfl, rfl⟩ := h
      have hTu : useTol tol = T := by rw [hT]; unfold useTol; congr 1; norm_num
      rw [hTu] at hl
      have hsm := dkaLoop_small tolz T n a _ _ _ hl
      intro i hi
      obtain ⟨h1, h2⟩ := hsm i hi
      have hT0 : 0 ≤ T := (abs_nonneg _).trans h1
      have han : 0 < |a n| := abs_pos.2 ha
      have hnorm : ‖(cpoly n a).eval (z i)‖ ≤ 2 * T := (Complex.norm_le_abs_re_add_abs_im _).trans (by linarith)
      have hq : 0 ≤ 2 * T / |a n| := by positivity
      obtain ⟨r, hr, hzr⟩ := root_near (cpoly n a) n hn (cpoly_natDegree n a ha) (z i) ((2 * T / |a n|) ^ (1 / (n : ℝ))) (Real.rpow_nonneg hq _)
        (by
          rw [one_div, Real.rpow_inv_natCast_pow hq (by omega), cpoly_leading n a ha, Complex.norm_real, Real.norm_eq_abs, mul_div_cancel₀ _ han.ne']
          exact hnorm)
      refine ⟨z i, r, h1, h2, hr, hzr, ?_⟩
      rw [touchup_eq]
      dsimp only
      rw [if_pos (by omega)]
      have := zComplexTouchup_spec (z i) tolz hz
      exact ⟨this.2.2.1, this.2.2.2⟩

/-! ## The iteration -/

theorem cdiv_eq (tolz : ℝ) (p d : ℂ) : cdiv tolz p d = if |Complex.normSq d| ≤ tolz then .ub else .ok (p / d) := by
  unfold cdiv invVal
  have e : zComplexSqrAbs d = Complex.normSq d := by rw [Complex.normSq_apply]; rfl
  rw [e]
  by_cases h : |Complex.normSq d| ≤ tolz
  · rw [if_pos h, if_pos h]
  · rw [if_neg h, if_neg h]
    show Res.ok _ = Res.ok _
    congr 1
    apply Complex.ext
    · rw [Complex.div_re]; ring
    · rw [Complex.div_im]; ring

theorem forUpM_succ {σ : Type*} (m : Nat) (f : Nat → σ → Res σ) (s : σ) : forUpM 0 (m+1) f s = (forUpM 0 m f s).bind (f m) := by
  rw [forUpM_split (Nat.zero_le m) (Nat.le_succ m)]
  congr 1
  funext t
  rw [forUpM_cons (Nat.lt_succ_self m)]
  cases f m t with
  | ok x => exact forUpM_nil le_rfl f x
  | fail => rfl
  | ub => rfl

/-- Specification: `z` is separated: the squares of the distances are not tiny. -/
def Sep (tolz : ℝ) (n : Nat) (z : Nat → ℂ) : Prop := ∀ i j, i < n → j < n → i ≠ j → tolz < Complex.normSq (z i - z j)

theorem Sep.ne {tolz : ℝ} (hz : 0 ≤ tolz) {n : Nat} {z : Nat → ℂ} (h : Sep tolz n z) {i j : Nat} (hi : i < n) (hj : j < n) (hij : i ≠ j) : z i ≠ z j := by
  intro e
  have := h i j hi hj hij
  rw [e, sub_self, map_zero] at this
  linarith

theorem dkaCorr_ok (tolz an : ℝ) (han : tolz < |an|) (n : Nat) (z : Nat → ℂ) (hs : Sep tolz n z) (i : Nat) (hi : i < n) (p : ℂ) :
    dkaCorr tolz an n z i p = .ok (p / (an * ∏ j ∈ (range n).erase i, (z i - z j))) := by
  unfold dkaCorr
  have hloop : ∀ m, m ≤ n → forUpM 0 m (fun j p => if j = i then .ok p else cdiv tolz p (z i - z j)) p =
      .ok (p / ∏ j ∈ (range m).erase i, (z i - z j)) := by
    intro m
    induction m with
    | zero => intro _; simp [forUpM, forNM]
    | succ m ih =>
      intro hm
      rw [forUpM_succ, ih (by omega)]
      simp only [Res.bind]
      by_cases hmi : m = i
      · subst hmi
        rw [if_pos rfl]
        congr 3
        ext k; simp only [mem_erase, mem_range]; omega
      · rw [if_neg hmi, cdiv_eq, if_neg (by rw [abs_of_nonneg (Complex.normSq_nonneg _)]; exact not_le.2 (hs i m hi (by omega) (Ne.symm hmi)))]
        congr 1
        have : (range (m+1)).erase i = insert m ((range m).erase i) := by
          ext k; simp only [mem_erase, mem_range, mem_insert]; omega
        rw [this, prod_insert (by simp), div_div, mul_comm]
  rw [hloop n le_rfl]
  simp only [Res.bind]
  rw [if_neg (not_le.2 han)]
  congr 1
  rw [mul_comm (an : ℂ), ← div_div]
  generalize p / ∏ j ∈ (range n).erase i, (z i - z j) = w
  apply Complex.ext
  · rw [Complex.div_ofReal_re]; ring
  · rw [Complex.div_ofReal_im]; ring

/-- C129: with separated approximations each turn subtracts `a(z_i) / (a_n Π_{j≠i} (z_i - z_j))` from all approximations at once. -/
theorem dkaStep_spec (tolz : ℝ) (n : Nat) (a : Nat → ℝ) (han : tolz < |a n|) (z : Nat → ℂ) (hs : Sep tolz n z) :
    dkaStep tolz (a n) n z (fun i => zPexCVal { size := n+1, c := a } (z i)) =
      .ok (fun i => if i < n then z i - (cpoly n a).eval (z i) / (a n * ∏ j ∈ (range n).erase i, (z i - z j)) else z i) := by
  unfold dkaStep
  have hloop : ∀ m, m ≤ n → forUpM 0 m (fun i p => (dkaCorr tolz (a n) n z i (p i)).bind fun w => .ok (set1 p i w))
      (fun i => zPexCVal { size := n+1, c := a } (z i)) = .ok (fun i => if i < m then
        (cpoly n a).eval (z i) / (a n * ∏ j ∈ (range n).erase i, (z i - z j)) else (cpoly n a).eval (z i)) := by
    intro m
    induction m with
    | zero =>
      intro _
      simp only [forUpM, forNM, Nat.sub_self, Nat.not_lt_zero, if_false]
      congr 1; funext i; exact cval_eq n a (z i)
    | succ m ih =>
      intro hm
      rw [forUpM_succ, ih (by omega)]
      simp only [Res.bind]
      rw [if_neg (lt_irrefl m), dkaCorr_ok tolz (a n) han n z hs m (by omega)]
      simp only [Res.ok.injEq]
      funext i
      by_cases him : i = m
      · subst him; rw [set1_same, if_pos (by omega)]
      · rw [set1_ne _ _ him]
        by_cases h : i < m
        · rw [if_pos h, if_pos (by omega)]
        · rw [if_neg h, if_neg (by omega)]
  rw [hloop n le_rfl]
  simp only [Res.bind, Res.ok.injEq]
  rw [forUp_set1 (fun i (z' : Nat → ℂ) => z' i - if i < n then
        (cpoly n a).eval (z i) / (a n * ∏ j ∈ (range n).erase i, (z i - z j)) else (cpoly n a).eval (z i)) z (fun i => z i -
        (cpoly n a).eval (z i) / (a n * ∏ j ∈ (range n).erase i, (z i - z j)))]
  · funext i; simp
  · intro k t _ hk _ h; rw [h k (by omega), if_pos hk]

/-- C129: from the first turn on the sum of the approximations is that of the roots. -/
theorem dkaStep_vieta (tolz : ℝ) (hz : 0 ≤ tolz) (n : Nat) (hn : 0 < n) (a : Nat → ℝ) (han : tolz < |a n|) (z : Nat → ℂ) (hs : Sep tolz n z) :
    ∃ z', dkaStep tolz (a n) n z (fun i => zPexCVal { size := n+1, c := a } (z i)) = .ok z' ∧
      ∑ i ∈ range n, z' i = ((cpoly n a).roots).sum := by
  refine ⟨_, dkaStep_spec tolz n a han z hs, ?_⟩
  have ha : a n ≠ 0 := by intro h; rw [h, abs_zero] at han; linarith
  have hac : (a n : ℂ) ≠ 0 := by exact_mod_cast ha
  have hinj : Set.InjOn z (range n : Finset ℕ) := by
    intro i hi j hj e
    by_contra hij
    exact hs.ne hz (mem_range.1 hi) (mem_range.1 hj) hij e
  set P : ℂ[X] := C ((a n : ℂ)⁻¹) * cpoly n a - Lagrange.nodal (range n) z with hP
  have hq : (C ((a n : ℂ)⁻¹) * cpoly n a).degree = n := by
    rw [degree_C_mul (inv_ne_zero hac), degree_eq_natDegree (cpoly_ne_zero n a ha), cpoly_natDegree n a ha]
  have hPd : P.degree < #(range n) := by
    rw [card_range]
    have hnd : (Lagrange.nodal (range n) z).degree = n := by rw [Lagrange.degree_nodal, card_range]
    have := degree_sub_lt (hq.trans hnd.symm) (fun h => by rw [h, degree_zero] at hq; exact absurd hq (by simp)) (by
      rw [Lagrange.nodal_monic.leadingCoeff, leadingCoeff_mul, leadingCoeff_C, cpoly_leading n a ha, inv_mul_cancel₀ hac])
    rwa [hq] at this
  have hsum := Lagrange.coeff_eq_sum hinj hPd
  have hev : ∀ i ∈ range n, P.eval (z i) / ∏ j ∈ (range n).erase i, (z i - z j) =
      (cpoly n a).eval (z i) / (a n * ∏ j ∈ (range n).erase i, (z i - z j)) := by
    intro i hi
    rw [hP, eval_sub, Lagrange.eval_nodal_at_node hi, sub_zero, eval_mul, eval_C, ← div_div, ← div_eq_inv_mul]
  rw [sum_congr rfl hev, card_range] at hsum
  have hnod : (Lagrange.nodal (range n) z).coeff (n-1) = -∑ i ∈ range n, z i := by
    have := Polynomial.prod_X_sub_C_nextCoeff (s := range n) z
    rw [← Lagrange.nodal_eq, nextCoeff_of_natDegree_pos (by rw [Lagrange.natDegree_nodal, card_range]; exact hn), Lagrange.natDegree_nodal, card_range] at this
    exact this
  have hroots : (C ((a n : ℂ)⁻¹) * cpoly n a).coeff (n-1) = -((cpoly n a).roots).sum := by
    have h := (IsAlgClosed.splits (cpoly n a)).nextCoeff_eq_neg_sum_roots_mul_leadingCoeff
    rw [nextCoeff_of_natDegree_pos (by rw [cpoly_natDegree n a ha]; exact hn), cpoly_natDegree n a ha, cpoly_leading n a ha] at h
    rw [coeff_C_mul, h]
    field_simp
  rw [hP, coeff_sub, hroots, hnod] at hsum
  have : ∑ i ∈ range n, (if i < n then z i - (cpoly n a).eval (z i) / (a n * ∏ j ∈ (range n).erase i, (z i - z j)) else z i) =
      ∑ i ∈ range n, z i - ∑ i ∈ range n, (cpoly n a).eval (z i) / (a n * ∏ j ∈ (range n).erase i, (z i - z j)) := by
    rw [← sum_sub_distrib]
    exact sum_congr rfl fun i hi => if_pos (mem_range.1 hi)
  rw [this, ← hsum]; ring

/-- C129 (convergence): let the roots be `r 0 .. r (n-1)`, at distances of `d` at least (not tiny), and all approximations be within `E ≤ d/(3n+2)` of theirs.
Then a turn is defined and takes each error to less than half of it, and to the order of its square. -/
theorem dkaStep_converges (tolz : ℝ) (n : Nat) (hn : 0 < n) (a : Nat → ℝ) (han : tolz < |a n|) (ha : a n ≠ 0) (r z : Nat → ℂ)
    (hr : cpoly n a = C (a n : ℂ) * ∏ i ∈ range n, (X - C (r i))) (d E : ℝ) (hd : 0 < d) (hsep : ∀ i j, i < n → j < n → i ≠ j → d ≤ ‖r i - r j‖)
    (hE : (3 * n + 2) * E ≤ d) (htz : tolz < (d - 2 * E) ^ 2) (hz : ∀ i, i < n → ‖z i - r i‖ ≤ E) :
    ∃ z', dkaStep tolz (a n) n z (fun i => zPexCVal { size := n+1, c := a } (z i)) = .ok z' ∧
      ∀ i, i < n → ‖z' i - r i‖ ≤ 1 / 2 * ‖z i - r i‖ ∧ ‖z' i - r i‖ ≤ 3 / 2 * (n * E / (d - 2 * E)) * ‖z i - r i‖ := by
  have hE0 : 0 ≤ E := (norm_nonneg _).trans (hz 0 hn)
  have hn1 : (1:ℝ) ≤ n := by exact_mod_cast hn
  have hD : 0 < d - 2 * E := by nlinarith
  have hx : n * E / (d - 2 * E) ≤ 1 / 3 := by rw [div_le_iff₀ hD]; nlinarith
  have hzz : ∀ i j, i < n → j < n → i ≠ j → d - 2 * E ≤ ‖z i - z j‖ := by
    intro i j hi hj hij
    have h1 := hsep i j hi hj hij
    have h2 : ‖r i - r j‖ ≤ ‖z i - r i‖ + ‖z i - z j‖ + ‖z j - r j‖ := by
      have : r i - r j = -(z i - r i) + (z i - z j) + (z j - r j) := by ring
      rw [this]
      refine (norm_add_le _ _).trans (add_le_add ((norm_add_le _ _).trans ?_) le_rfl)
      rw [norm_neg]
    have h3 := hz i hi
    have h4 := hz j hj
    linarith
  have hs : Sep tolz n z := by
    intro i j hi hj hij
    rw [Complex.normSq_eq_norm_sq]
    exact htz.trans_le (pow_le_pow_left₀ hD.le (hzz i j hi hj hij) 2)
  refine ⟨_, dkaStep_spec tolz n a han z hs, ?_⟩
  intro i hi
  rw [if_pos hi]
  have hac : (a n : ℂ) ≠ 0 := by exact_mod_cast ha
  have hne : ∀ j ∈ (range n).erase i, z i - z j ≠ 0 := by
    intro j hj
    rw [mem_erase, mem_range] at hj
    rw [← norm_pos_iff]
    exact hD.trans_le (hzz i j hi hj.2 (Ne.symm hj.1))
  have key : z i - (cpoly n a).eval (z i) / (a n * ∏ j ∈ (range n).erase i, (z i - z j)) - r i =
      -((z i - r i) * (∏ j ∈ (range n).erase i, (1 + (z j - r j) / (z i - z j)) - 1)) := by
    have e1 : (cpoly n a).eval (z i) = a n * ((z i - r i) * ∏ j ∈ (range n).erase i, (z i - r j)) := by
      rw [hr, eval_mul, eval_C, eval_prod, mul_prod_erase (range n) (fun j => z i - r j) (mem_range.2 hi)]
      simp
    have e2 : ∏ j ∈ (range n).erase i, (1 + (z j - r j) / (z i - z j)) =
        (∏ j ∈ (range n).erase i, (z i - r j)) / ∏ j ∈ (range n).erase i, (z i - z j) := by
      rw [← prod_div_distrib]
      refine prod_congr rfl fun j hj => ?_
      have := hne j hj
      field_simp
      ring
    have hp : ∏ j ∈ (range n).erase i, (z i - z j) ≠ 0 := prod_ne_zero_iff.2 hne
    rw [e1, e2]
    field_simp
    ring
  have hu : ∑ j ∈ (range n).erase i, ‖(z j - r j) / (z i - z j)‖ ≤ n * E / (d - 2 * E) := by
    calc ∑ j ∈ (range n).erase i, ‖(z j - r j) / (z i - z j)‖ ≤ ∑ j ∈ (range n).erase i, E / (d - 2 * E) := by
          refine sum_le_sum fun j hj => ?_
          rw [mem_erase, mem_range] at hj
          rw [norm_div]
          exact div_le_div₀ hE0 (hz j hj.2) hD (hzz i j hi hj.2 (Ne.symm hj.1))
      _ ≤ _ := by
          rw [sum_const, nsmul_eq_mul, mul_div_assoc]
          refine mul_le_mul_of_nonneg_right ?_ (div_nonneg hE0 hD.le)
          have : #((range n).erase i) ≤ n := (card_erase_le).trans (by rw [card_range])
          exact_mod_cast this
  have hprod := Finset.norm_prod_one_add_sub_one_le ((range n).erase i) (fun j => (z j - r j) / (z i - z j))
  set x := n * E / (d - 2 * E) with hxdef
  have hx0 : 0 ≤ x := div_nonneg (mul_nonneg (by linarith) hE0) hD.le
  have hexp : Real.exp x - 1 ≤ 3 / 2 * x := by
    have h1 : 1 - x ≤ Real.exp (-x) := Real.one_sub_le_exp_neg x
    have h2 : Real.exp x * Real.exp (-x) = 1 := by rw [← Real.exp_add]; simp
    have h3 := Real.exp_pos x
    have h4 : Real.exp x * (1 - x) ≤ 1 := (mul_le_mul_of_nonneg_left h1 h3.le).trans_eq h2
    have h5 : Real.exp x ≤ 3 / 2 := by nlinarith
    nlinarith
  have hfin : ‖∏ j ∈ (range n).erase i, (1 + (z j - r j) / (z i - z j)) - 1‖ ≤ 3 / 2 * x :=
    hprod.trans ((sub_le_sub_right (Real.exp_le_exp.2 hu) 1).trans hexp)
  rw [key, norm_neg, norm_mul]
  have hw := norm_nonneg (z i - r i)
  constructor
  · nlinarith
  · nlinarith

/-- C129 (convergence): under the same conditions, and for every tolerance, enough turns end without a warning, close to the roots. -/
theorem dkaLoop_converges (tolz tol : ℝ) (htol : 0 < tol) (n : Nat) (hn : 0 < n) (a : Nat → ℝ) (han : tolz < |a n|) (ha : a n ≠ 0) (r z : Nat → ℂ)
    (hr : cpoly n a = C (a n : ℂ) * ∏ i ∈ range n, (X - C (r i))) (d E : ℝ) (hd : 0 < d) (hsep : ∀ i j, i < n → j < n → i ≠ j → d ≤ ‖r i - r j‖)
    (hE : (3 * n + 2) * E ≤ d) (htz : tolz < (d - 2 * E) ^ 2) (hz : ∀ i, i < n → ‖z i - r i‖ ≤ E) :
    ∃ K, ∀ k, K < k → ∃ z', dkaLoop tolz tol n a k z = .ok (z', false) ∧ ∀ i, i < n → ‖z' i - r i‖ ≤ E := by
  -- the residual is small near the roots
  have hδ : ∃ δ > 0, ∀ i, i < n → ∀ w, ‖w - r i‖ ≤ δ → isTol ((cpoly n a).eval w) tol := by
    have h1 : ∀ i, i < n → ∃ δ > 0, ∀ w, ‖w - r i‖ ≤ δ → isTol ((cpoly n a).eval w) tol := by
      intro i hi
      have hroot : (cpoly n a).eval (r i) = 0 := by
        rw [hr, eval_mul, eval_prod, prod_eq_zero (mem_range.2 hi) (by simp), mul_zero]
      have hc : ContinuousAt (fun w => (cpoly n a).eval w) (r i) := (cpoly n a).continuous.continuousAt
      rw [Metric.continuousAt_iff] at hc
      obtain ⟨δ, hδ, h⟩ := hc tol htol
      refine ⟨δ / 2, by positivity, fun w hw => ?_⟩
      have := h (x := w) (by rw [dist_eq_norm]; linarith)
      rw [hroot, dist_zero_right] at this
      exact ⟨(Complex.abs_re_le_norm _).trans this.le, (Complex.abs_im_le_norm _).trans this.le⟩
    have h2 : ∀ m, m ≤ n → ∃ δ > 0, ∀ i, i < m → ∀ w, ‖w - r i‖ ≤ δ → isTol ((cpoly n a).eval w) tol := by
      intro m
      induction m with
      | zero => intro _; exact ⟨1, one_pos, fun i hi => absurd hi (by omega)⟩
      | succ m ih =>
        intro hm
        obtain ⟨δ1, p1, h1'⟩ := ih (by omega)
        obtain ⟨δ2, p2, h2'⟩ := h1 m (by omega)
        refine ⟨min δ1 δ2, lt_min p1 p2, fun i hi w hw => ?_⟩
        by_cases him : i = m
        · subst him; exact h2' w (hw.trans (min_le_right _ _))
        · exact h1' i (by omega) w (hw.trans (min_le_left _ _))
    exact h2 n le_rfl
  obtain ⟨δ, hδ0, hδ⟩ := hδ
  have hE0 : 0 ≤ E := (norm_nonneg _).trans (hz 0 hn)
  obtain ⟨K, hK⟩ : ∃ K : ℕ, E * (1 / 2) ^ K ≤ δ := by
    obtain ⟨K, hK⟩ := exists_pow_lt_of_lt_one (show (0:ℝ) < δ / (E + 1) by positivity) (show (1/2 : ℝ) < 1 by norm_num)
    refine ⟨K, ?_⟩
    rw [lt_div_iff₀ (by positivity)] at hK
    have : (0:ℝ) < (1/2) ^ K := by positivity
    nlinarith
  refine ⟨K, ?_⟩
  clear hE0
  induction K generalizing z E with
  | zero =>
    intro k hk
    obtain ⟨k, rfl⟩ : ∃ m, k = m + 1 := ⟨k - 1, by omega⟩
    refine ⟨z, ?_, hz⟩
    unfold dkaLoop
    dsimp only
    rw [if_pos]
    intro i hi
    rw [cval_eq]
    exact hδ i hi _ ((hz i hi).trans (by simpa using hK))
  | succ K ih =>
    intro k hk
    obtain ⟨k, rfl⟩ : ∃ m, k = m + 1 := ⟨k - 1, by omega⟩
    have hE0 : 0 ≤ E := (norm_nonneg _).trans (hz 0 hn)
    by_cases ht : ∀ i, i < n → isTol (zPexCVal { size := n+1, c := a } (z i)) tol
    · refine ⟨z, ?_, hz⟩
      unfold dkaLoop
      dsimp only
      rw [if_pos ht]
    · obtain ⟨z1, hs, h1⟩ := dkaStep_converges tolz n hn a han ha r z hr d E hd hsep hE htz hz
      have hnn : (0:ℝ) ≤ n := by positivity
      have hEd : 2 * E ≤ d := by nlinarith
      obtain ⟨z', hz', hb⟩ := ih z1 (1 / 2 * E) (by nlinarith) (htz.trans_le (pow_le_pow_left₀ (by linarith) (by linarith) 2))
        (fun i hi => (h1 i hi).1.trans (by have := hz i hi; linarith)) (by rw [pow_succ] at hK; linarith) k (by omega)
      refine ⟨z', ?_, fun i hi => (hb i hi).trans (by linarith)⟩
      unfold dkaLoop
      dsimp only
      rw [if_neg ht, hs]
      exact hz'

/-! ## The first approximations -/

theorem dkaRadius_spec (n : Nat) (b : Nat → ℝ) : 0 ≤ dkaRadius n b ∧ ∀ i, 1 ≤ i → i ≤ n → (n : ℝ) * |b (n - i) / b n| ≤ dkaRadius n b ^ i := by
  unfold dkaRadius
  have := forUp_inv (lo := 1) (hi := n+1) (fun i r0 => let r := ((n : ℝ) * |b (n - i) / b n|) ^ (1 / (i : ℝ)); if r0 < r then r else r0) 0
    (fun j r0 => 0 ≤ r0 ∧ ∀ i, 1 ≤ i → i < j → (n : ℝ) * |b (n - i) / b n| ≤ r0 ^ i) (by omega) ⟨le_rfl, fun i h1 h2 => by omega⟩
    (by
      intro j t h1 h2 ⟨ih0, ih⟩
      dsimp only
      set x := (n : ℝ) * |b (n - j) / b n| with hx
      have hx0 : 0 ≤ x := by positivity
      have hp : (x ^ (1 / (j:ℝ))) ^ j = x := by rw [one_div, Real.rpow_inv_natCast_pow hx0 (by omega)]
      have hr0 : 0 ≤ x ^ (1 / (j:ℝ)) := Real.rpow_nonneg hx0 _
      split_ifs with h
      · refine ⟨hr0, fun i hi1 hi2 => ?_⟩
        by_cases hij : i = j
        · subst hij; rw [hp]
        · exact (ih i hi1 (by omega)).trans (pow_le_pow_left₀ ih0 h.le i)
      · refine ⟨ih0, fun i hi1 hi2 => ?_⟩
        by_cases hij : i = j
        · subst hij; rw [← hx, ← hp]; exact pow_le_pow_left₀ hr0 (not_lt.1 h) _
        · exact ih i hi1 (by omega))
  exact ⟨this.1, fun i h1 h2 => this.2 i h1 (by omega)⟩

theorem polar_eq (r t : ℝ) : polar r t = r * Complex.exp (t * Complex.I) := by
  rw [Complex.exp_mul_I, ← Complex.ofReal_cos, ← Complex.ofReal_sin]
  apply Complex.ext
  · simp only [polar, Complex.re_ofReal_mul, Complex.add_re, Complex.ofReal_re, Complex.re_ofReal_mul, Complex.I_re, mul_zero, add_zero]
  · simp only [polar, Complex.im_ofReal_mul, Complex.add_im, Complex.ofReal_im, Complex.im_ofReal_mul, Complex.I_im, mul_one, zero_add]

theorem dkaInit_eq (n : Nat) (hn : 0 < n) (a : Nat → ℝ) (ha : a n ≠ 0) (ans : Nat → ℂ) (b : Pex ℝ)
    (hb : zPexModulo { size := n+1, c := a } (a (n-1) / (a n * n)) { size := n+1, c := fun _ => 0 } = .ok b) :
    dkaInit n a ans = .ok (fun i => if i < n then polar (dkaRadius n b.c) ((2 * Real.pi * i + 1.5) / n) - ((a (n-1) / (a n * n) : ℝ) : ℂ) else ans i) := by
  set s : ℝ := a (n-1) / (a n * n) with hs
  set r0 := dkaRadius n b.c with hr0
  unfold dkaInit
  rw [if_neg (by push Not; exact ⟨hn.ne', ha⟩)]
  dsimp only
  rw [← hs, hb]
  simp only [Res.bind, Res.ok.injEq]
  have e : ∀ (i : Nat) (v : Nat → ℂ) , set1 (set1 v i (polar r0 ((2 * Real.pi * i + 1.5) / n))) i
      ⟨(set1 v i (polar r0 ((2 * Real.pi * i + 1.5) / n)) i).re - s, (set1 v i (polar r0 ((2 * Real.pi * i + 1.5) / n)) i).im⟩ =
      set1 v i (polar r0 ((2 * Real.pi * i + 1.5) / n) - s) := by
    intro i v
    funext j
    by_cases hj : j = i
    · subst hj; rw [set1_same, set1_same, set1_same]; apply Complex.ext <;> simp
    · rw [set1_ne _ _ hj, set1_ne _ _ hj, set1_ne _ _ hj]
  rw [← hr0]
  simp only [e]
  rw [forUp_set1 (fun i (_ : Nat → ℂ) => polar r0 ((2 * Real.pi * i + 1.5) / n) - s) ans (fun i => polar r0 ((2 * Real.pi * i + 1.5) / n) - s)]
  · funext i; simp
  · intros; rfl

/-- C129: the first approximations lie on a circle about the centre of the roots that encloses all roots; they are different ones, or the polynomial is a power
of a linear one and all of them are its root. -/
theorem dkaInit_spec (n : Nat) (hn : 0 < n) (a : Nat → ℝ) (ha : a n ≠ 0) (ans : Nat → ℂ) :
    ∃ z r0, dkaInit n a ans = .ok z ∧ 0 ≤ r0 ∧ (∀ i, i < n → ‖z i - (((cpoly n a).roots).sum / n)‖ = r0) ∧
      (∀ r, (cpoly n a).eval r = 0 → ‖r - (((cpoly n a).roots).sum / n)‖ ≤ r0) ∧
      ((∀ i j, i < n → j < n → i ≠ j → z i ≠ z j) ∨ ∀ i, i < n → (cpoly n a).eval (z i) = 0) ∧ ∀ i, n ≤ i → z i = ans i := by
  have hac : (a n : ℂ) ≠ 0 := by exact_mod_cast ha
  have hnc : (n : ℂ) ≠ 0 := by exact_mod_cast hn.ne'
  have hnr : (0:ℝ) < n := by exact_mod_cast hn
  set s : ℝ := a (n-1) / (a n * n) with hs
  have hcen : ((cpoly n a).roots).sum / n = -(s : ℂ) := by
    have h := (IsAlgClosed.splits (cpoly n a)).nextCoeff_eq_neg_sum_roots_mul_leadingCoeff
    rw [nextCoeff_of_natDegree_pos (by rw [cpoly_natDegree n a ha]; exact hn), cpoly_natDegree n a ha, cpoly_leading n a ha, cpoly_coeff n a _ (by omega)] at h
    rw [hs]; push_cast; rw [h]; field_simp
  obtain ⟨b, hb, hbs, hbp⟩ := zPexModulo_correct { size := n+1, c := a } { size := n+1, c := fun _ => 0 } s rfl (by simp)
  change b.size = n + 1 at hbs
  rw [hbs] at hbp
  change _ = poly (n+1) a at hbp
  have hbn : b.c n = a n := by
    have h1 := congrArg (fun P => coeff P n) hbp
    simp only [finsetSum_coeff, coeff_C_mul, poly_coeff, coeff_X_add_C_pow] at h1
    rw [sum_range_succ, sum_eq_zero, if_pos (by omega)] at h1
    · simpa using h1
    · intro k hk
      rw [Nat.choose_eq_zero_of_lt (mem_range.1 hk)]; simp
  have hev : ∀ w : ℂ, (cpoly n a).eval w = ∑ k ∈ range (n+1), (b.c k : ℂ) * (w + s) ^ k := by
    intro w
    unfold cpoly
    rw [← hbp, Polynomial.map_sum, eval_finsetSum]
    refine sum_congr rfl fun k _ => ?_
    simp
  set r0 := dkaRadius n b.c with hr0
  obtain ⟨hr00, hrad⟩ := dkaRadius_spec n b.c
  rw [← hr0] at hr00 hrad
  have hbk : ∀ i, 1 ≤ i → i ≤ n → |b.c (n-i)| ≤ |a n| * (r0 ^ i / n) := by
    intro i h1 h2
    have := hrad i h1 h2
    rw [hbn, abs_div] at this
    have han : 0 < |a n| := abs_pos.2 ha
    rw [← mul_div_assoc, div_le_iff₀ han] at this
    rw [← mul_div_assoc, le_div_iff₀ hnr]
    linarith
  have hz := dkaInit_eq n hn a ha ans b hb
  rw [← hs, ← hr0] at hz
  refine ⟨_, r0, hz, hr00, ?_, ?_, ?_, ?_⟩
  · intro i hi
    rw [if_pos hi, hcen, sub_neg_eq_add, sub_add_cancel, polar_eq, norm_mul, Complex.norm_exp_ofReal_mul_I, mul_one, Complex.norm_real, Real.norm_of_nonneg hr00]
  · intro r hr
    rw [hcen, sub_neg_eq_add]
    by_contra hc
    push Not at hc
    rw [hev, sum_range_succ, hbn] at hr
    set y := r + (s:ℂ) with hy
    have h1 : ‖(a n : ℂ) * y ^ n‖ = ‖∑ k ∈ range n, (b.c k : ℂ) * y ^ k‖ := by
      rw [eq_neg_of_add_eq_zero_right hr, norm_neg]
    rw [norm_mul, norm_pow, Complex.norm_real, Real.norm_eq_abs] at h1
    have han : 0 < |a n| := abs_pos.2 ha
    have hypos : 0 < ‖y‖ := lt_of_le_of_lt hr00 hc
    have h2 : ‖∑ k ∈ range n, (b.c k : ℂ) * y ^ k‖ < ∑ k ∈ range n, |a n| * (‖y‖ ^ n / n) := by
      refine (norm_sum_le _ _).trans_lt (sum_lt_sum_of_nonempty (nonempty_range_iff.2 hn.ne') ?_)
      intro k hk
      rw [mem_range] at hk
      rw [norm_mul, norm_pow, Complex.norm_real, Real.norm_eq_abs]
      have h3 := hbk (n-k) (by omega) (by omega)
      rw [Nat.sub_sub_self hk.le] at h3
      have h4 : r0 ^ (n-k) < ‖y‖ ^ (n-k) := pow_lt_pow_left₀ hc hr00 (by omega)
      calc |b.c k| * ‖y‖ ^ k ≤ |a n| * (r0 ^ (n-k) / n) * ‖y‖ ^ k := mul_le_mul_of_nonneg_right h3 (by positivity)
        _ < |a n| * (‖y‖ ^ (n-k) / n) * ‖y‖ ^ k := by
            refine mul_lt_mul_of_pos_right (mul_lt_mul_of_pos_left ?_ han) (by positivity)
            exact div_lt_div_of_pos_right h4 hnr
        _ = |a n| * (‖y‖ ^ n / n) := by
            rw [mul_assoc, div_mul_eq_mul_div, ← pow_add, Nat.sub_add_cancel hk.le]
    rw [← h1, sum_const, card_range, nsmul_eq_mul] at h2
    have : (n:ℝ) * (|a n| * (‖y‖ ^ n / n)) = |a n| * ‖y‖ ^ n := by field_simp
    rw [this] at h2
    exact lt_irrefl _ h2
  · by_cases h0 : r0 = 0
    · right
      intro i hi
      rw [if_pos hi, hev, h0, polar_eq]
      simp only [Complex.ofReal_zero, zero_mul, zero_sub, neg_add_cancel]
      rw [sum_range_succ, sum_eq_zero, zero_pow hn.ne', mul_zero, add_zero]
      intro k hk
      rw [mem_range] at hk
      have h3 := hbk (n-k) (by omega) (by omega)
      rw [Nat.sub_sub_self hk.le, h0, zero_pow (by omega), zero_div, mul_zero] at h3
      rw [abs_nonpos_iff.1 h3]; simp
    · left
      intro i j hi hj hij h
      rw [if_pos hi, if_pos hj, sub_left_inj, polar_eq, polar_eq, mul_right_inj' (by exact_mod_cast h0), Complex.exp_eq_exp_iff_exists_int] at h
      obtain ⟨m, hm⟩ := h
      have h2 : (2 * Real.pi * i + 1.5) / n = (2 * Real.pi * j + 1.5) / n + m * (2 * Real.pi) := by
        have h3 : (((2 * Real.pi * i + 1.5) / n : ℝ) : ℂ) * Complex.I = (((2 * Real.pi * j + 1.5) / n + m * (2 * Real.pi) : ℝ) : ℂ) * Complex.I := by
          rw [hm]; push_cast; ring
        exact_mod_cast mul_right_cancel₀ Complex.I_ne_zero h3
      have hpi := Real.pi_pos
      rw [div_add' _ _ _ hnr.ne', div_left_inj' hnr.ne'] at h2
      have h4 : (i : ℝ) = j + m * n := by
        have : 2 * Real.pi * ((i:ℝ) - (j + m * n)) = 0 := by linarith
        rcases mul_eq_zero.1 this with h | h
        · exact absurd h (by positivity)
        · linarith
      have h5 : (i : ℤ) = j + m * n := by exact_mod_cast h4
      rcases lt_trichotomy m 0 with hm0 | hm0 | hm0
      · have : m * (n:ℤ) ≤ -1 * n := mul_le_mul_of_nonneg_right (by omega) (by omega)
        omega
      · subst hm0; simp at h5; exact hij h5
      · have : 1 * (n:ℤ) ≤ m * n := mul_le_mul_of_nonneg_right (by omega) (by omega)
        omega
  · intro i hi
    rw [if_neg (by omega)]

theorem dkaRadius_le (n : Nat) (b : Nat → ℝ) (ρ : ℝ) (hρ : 0 ≤ ρ) (h : ∀ i, 1 ≤ i → i ≤ n → (n : ℝ) * |b (n - i) / b n| ≤ ρ ^ i) : dkaRadius n b ≤ ρ := by
  unfold dkaRadius
  refine forUp_inv (lo := 1) (hi := n+1) (fun i r0 => let r := ((n : ℝ) * |b (n - i) / b n|) ^ (1 / (i : ℝ)); if r0 < r then r else r0) 0
    (fun _ r0 => r0 ≤ ρ) (by omega) hρ ?_
  intro j t h1 h2 ih
  dsimp only
  split_ifs
  · have hx := h j h1 (by omega)
    calc _ ≤ (ρ ^ j) ^ (1 / (j:ℝ)) := Real.rpow_le_rpow (by positivity) hx (by positivity)
      _ = ρ := by rw [one_div, Real.pow_rpow_inv_natCast hρ (by omega)]
  · exact ih

/-- C129 (negation): two approximations at a distance of 10⁻⁶ or less make a turn use a variable without a value. -/
theorem dkaStep_close_ub (tolz an : ℝ) (z p : Nat → ℂ) (h : Complex.normSq (z 0 - z 1) ≤ tolz) : dkaStep tolz an 2 z p = .ub := by
  have : Complex.normSq (z 0 - z 1) = |Complex.normSq (z 0 - z 1)| := (abs_of_nonneg (Complex.normSq_nonneg _)).symm
  rw [this] at h
  unfold dkaStep
  rw [forUpM_cons (by omega)]
  unfold dkaCorr
  rw [forUpM_cons (by omega), if_pos rfl]
  simp only [Res.bind]
  rw [forUpM_cons (by omega), if_neg (by omega), cdiv_eq, if_pos h]
  rfl

/-- C129 (negation): `10¹⁰ x² = 10⁻⁴`, whose roots are 10⁻⁷ and -10⁻⁷, is not solved with the tolerances of the library. -/
theorem zPexDKA_close_violated (ans : Nat → ℂ) (iter : Int) :
    zPexDKA (1 / 10 ^ 12) 2 (fun i => if i = 0 then -1 / 10 ^ 4 else if i = 1 then 0 else 10 ^ 10) 2 ans 0 iter = .ub := by
  set a : Nat → ℝ := fun i => if i = 0 then -1 / 10 ^ 4 else if i = 1 then 0 else 10 ^ 10 with ha
  have a0 : a 0 = -1 / 10 ^ 4 := by simp [ha]
  have a1 : a 1 = 0 := by simp [ha]
  have a2 : a 2 = 10 ^ 10 := by simp [ha]
  obtain ⟨b, hb, hbs, hbp⟩ := zPexModulo_correct { size := 2+1, c := a } { size := 2+1, c := fun _ => 0 } (a (2-1) / (a 2 * (2:ℕ))) rfl (by simp)
  have hbc : ∀ k, k ≤ 2 → b.c k = a k := by
    intro k hk
    have h1 := congrArg (fun P => coeff P k) hbp
    rw [a1, zero_div, C_0, add_zero] at h1
    have h2 : (toPoly b).coeff k = (toPoly { size := 2+1, c := a }).coeff k := h1
    rw [toPoly, toPoly, poly_coeff, poly_coeff, hbs] at h2
    change (if k < 2 + 1 then _ else _) = if k < 2 + 1 then _ else _ at h2
    rwa [if_pos (by omega), if_pos (by omega)] at h2
  have hi := dkaInit_eq 2 (by omega) a (by rw [a2]; norm_num) ans b hb
  rw [a1, zero_div] at hi
  set r0 := dkaRadius 2 b.c with hr0
  obtain ⟨h0, hlow⟩ := dkaRadius_spec 2 b.c
  rw [← hr0] at h0 hlow
  have hl := hlow 2 (by omega) (by omega)
  rw [hbc 2 le_rfl, hbc (2-2) (by omega), a2, a0] at hl
  norm_num at hl
  have hup : r0 ≤ 2 / 10 ^ 7 := by
    refine dkaRadius_le 2 b.c _ (by positivity) ?_
    intro i h1 h2
    have : i = 1 ∨ i = 2 := by omega
    rcases this with rfl | rfl
    · rw [hbc 2 le_rfl, hbc (2-1) (by omega), a1]; norm_num
    · rw [hbc 2 le_rfl, hbc (2-2) (by omega), a2, a0]; norm_num
  unfold zPexDKA
  rw [if_neg (by omega), hi]
  simp only [Res.bind]
  set z : Nat → ℂ := fun i => if i < 2 then polar r0 ((2 * Real.pi * i + 1.5) / (2:ℕ)) - ((0:ℝ) : ℂ) else ans i with hz
  have hn : ∀ i, i < 2 → ‖z i‖ = r0 := by
    intro i hi
    rw [hz]; dsimp only
    rw [if_pos hi, Complex.ofReal_zero, sub_zero, polar_eq, norm_mul, Complex.norm_exp_ofReal_mul_I, mul_one, Complex.norm_real, Real.norm_of_nonneg h0]
  obtain ⟨k, hk⟩ : ∃ k, iterInit iter = k + 1 := ⟨iterInit iter - 1, by unfold iterInit; split_ifs <;> omega⟩
  rw [hk]
  unfold dkaLoop
  dsimp only
  rw [if_neg, dkaStep_close_ub]
  · rfl
  · rw [Complex.normSq_eq_norm_sq]
    have h1 : ‖z 0 - z 1‖ ≤ 4 / 10 ^ 7 := (norm_sub_le _ _).trans (by rw [hn 0 (by omega), hn 1 (by omega)]; linarith)
    calc ‖z 0 - z 1‖ ^ 2 ≤ (4 / 10 ^ 7) ^ 2 := pow_le_pow_left₀ (norm_nonneg _) h1 2
      _ ≤ _ := by norm_num
  · intro h
    have h1 := h 0 (by omega)
    rw [cval_eq] at h1
    have hev : (cpoly 2 a).eval (z 0) = (10:ℂ) ^ 10 * z 0 ^ 2 - 1 / 10 ^ 4 := by
      unfold cpoly
      rw [poly, sum_range_succ, sum_range_succ, sum_range_one, a0, a1, a2]
      simp
      ring
    have h2 : ‖(cpoly 2 a).eval (z 0)‖ ≤ 2 / 10 ^ 7 := by
      refine (Complex.norm_le_abs_re_add_abs_im _).trans ?_
      have h3 := h1.1
      have h4 := h1.2
      unfold useTol at h3 h4
      rw [if_pos rfl] at h3 h4
      norm_num at h3 h4 ⊢
      linarith
    have h5 : ‖(10:ℂ) ^ 10 * z 0 ^ 2‖ ≤ ‖(cpoly 2 a).eval (z 0)‖ + ‖(1 / 10 ^ 4 : ℂ)‖ := by
      rw [hev]
      have := norm_add_le ((10:ℂ) ^ 10 * z 0 ^ 2 - 1 / 10 ^ 4) (1 / 10 ^ 4)
      rwa [sub_add_cancel] at this
    rw [norm_mul, norm_pow, norm_pow, hn 0 (by omega)] at h5
    have e1 : ‖(10:ℂ)‖ = 10 := by simp
    have e2 : ‖(1 / 10 ^ 4 : ℂ)‖ = 1 / 10 ^ 4 := by simp
    rw [e1, e2] at h5
    norm_num at h5 h2
    nlinarith

/-- The conditions of convergence are met: approximations of the roots 1 and -1 of `x² - 1`. -/
example : ∃ K, ∀ k, K < k → ∃ z', dkaLoop (1 / 10 ^ 12) (1 / 10 ^ 7) 2 (fun i => if i = 0 then -1 else if i = 1 then 0 else 1) k
    (fun i => if i = 0 then 1.1 else -0.9) = .ok (z', false) ∧ ∀ i, i < 2 → ‖z' i - if i = 0 then 1 else -1‖ ≤ 0.2 := by
  refine dkaLoop_converges _ _ (by norm_num) 2 (by omega) _ (by norm_num) (by norm_num) (fun i => if i = 0 then 1 else -1) _ ?_ 2 0.2 (by norm_num) ?_
    (by norm_num) (by norm_num) ?_
  · unfold cpoly
    rw [poly]
    simp [sum_range_succ, prod_range_succ]
    ring
  · intro i j hi hj hij
    have : (i = 0 ∧ j = 1) ∨ (i = 1 ∧ j = 0) := by omega
    rcases this with ⟨rfl, rfl⟩ | ⟨rfl, rfl⟩
    · simp; norm_num
    · simp; norm_num
  · intro i hi
    have : i = 0 ∨ i = 1 := by omega
    rcases this with rfl | rfl
    · simp; norm_num
    · simp; norm_num

end
end Zm.PexEq
