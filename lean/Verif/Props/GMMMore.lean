import Verif.Props.GMM
import Mathlib.Analysis.Real.Pi.Bounds
import Mathlib.Analysis.Complex.ExponentialBounds

/-! # Gaussian mixtures: initial Gaussians, the whole function, one Gaussian, criteria -/

set_option linter.unusedSectionVars false

namespace Zm.GMM
open Zm LE Finset Matrix

/-! ## The Gaussian of a cluster -/

theorem foldl_dyad (core : Nat → ℝ) : ∀ (l : List (Nat → ℝ)) (m : Nat → Nat → ℝ), l.foldl (fun m p => addDyad m (err p core) (err p core)) m =
    fun a b => m a b + (l.map fun p => (p a - core a) * (p b - core b)).sum
  | [], m => by simp
  | p :: l, m => by
    rw [List.foldl_cons, foldl_dyad core l]
    funext a b
    unfold addDyad err
    rw [List.map_cons, List.sum_cons]
    ring

theorem list_dyads (core : Nat → ℝ) : ∀ l : List (Nat → ℝ), ∃ (n : Nat) (e : Nat → Nat → ℝ), ∀ a b, (l.map fun p => (p a - core a) * (p b - core b)).sum =
    ∑ i ∈ range n, 1 * (e i a * e i b)
  | [] => ⟨0, fun _ _ => 0, by simp⟩
  | p :: l => by
    obtain ⟨n, e, h⟩ := list_dyads core l
    refine ⟨n + 1, fun i => if i = n then fun a => p a - core a else e i, fun a b => ?_⟩
    rw [List.map_cons, List.sum_cons, h, Finset.sum_range_succ]
    beta_reduce
    rw [if_pos rfl, add_comm]
    congr 1
    · refine Finset.sum_congr rfl fun i hi => ?_
      rw [if_neg (mem_range.mp hi).ne]
    · ring

/-- **The Gaussian of a cluster** has the mean and the covariance of its points. -/
theorem estim_spec {tol : ℝ} (ht : 0 ≤ tol) (ht1 : tol < 1) (d : Nat) (w : ℝ) (l : List (Nat → ℝ)) (hl : l ≠ []) : ∃ u, estim tol d w l = .ok u ∧ u.weight = w ∧
    (∀ c, c < d → u.core c = (l.map fun p => p c).sum / l.length) ∧
    (∀ a b, u.cov a b = (l.map fun p => (p a - u.core a) * (p b - u.core b)).sum / l.length) ∧
    (toMatrix d u.cov).PosSemidef ∧ 0 ≤ u.det ∧ (tol = 0 → (toMatrix d u.cov).det ≠ 0 → Regular 0 d u) := by
  unfold estim
  rw [if_neg hl]
  dsimp only
  rw [foldl_dyad]
  have hcov : (fun a b => (0 + ((l.reverse).map fun p => (p a - (Stat.zVecListMean tol d l).1 a) * (p b - (Stat.zVecListMean tol d l).1 b)).sum) / (l.length : ℝ)) =
      fun a b => (l.map fun p => (p a - (Stat.zVecListMean tol d l).1 a) * (p b - (Stat.zVecListMean tol d l).1 b)).sum / (l.length : ℝ) := by
    funext a b
    rw [zero_add, List.map_reverse, List.sum_reverse]
  rw [hcov]
  have hpsd : (toMatrix d fun a b => (l.map fun p => (p a - (Stat.zVecListMean tol d l).1 a) * (p b - (Stat.zVecListMean tol d l).1 b)).sum / (l.length : ℝ)).PosSemidef := by
    obtain ⟨n, e, h⟩ := list_dyads (Stat.zVecListMean tol d l).1 l
    have := dyads_psd d n (fun _ => 1) (fun _ _ => zero_le_one) e (l.length : ℝ)⁻¹ (by positivity)
    convert this using 1
    congr 1
    funext a b
    rw [h]; ring
  refine ⟨_, rfl, rfl, (Stat.zVecListMean_spec tol ht1 d l hl).2, fun a b => rfl, hpsd, det_nonneg ht d _ hpsd, fun h0 hdet => ?_⟩
  subst h0
  have hpd := hpsd.posDef_iff_det_ne_zero.mpr hdet
  have hd := zMatDet_correct d fun a b => (l.map fun p => (p a - (Stat.zVecListMean 0 d l).1 a) * (p b - (Stat.zVecListMean 0 d l).1 b)).sum / (l.length : ℝ)
  refine ⟨hpd, ?_, hd, ?_⟩
  · dsimp only
    rw [if_neg (by rw [hd]; exact not_le.mpr (abs_pos.mpr hdet))]
    exact matInv_eq hdet
  · dsimp only
    rw [hd]; exact hpd.det_pos

theorem estimAll_spec {tol : ℝ} (ht : 0 ≤ tol) (ht1 : tol < 1) (d : Nat) (w : ℝ) : ∀ (cs : List (List (Nat → ℝ))) (j : Nat) (U : Nat → GUnit), (∀ c ∈ cs, c ≠ []) →
    ∃ V, estimAll tol d w cs j U = .ok V ∧ (∀ i, i < j → V i = U i) ∧ ∀ i (hi : i < cs.length), estim tol d w cs[i] = .ok (V (j + i))
  | [], j, U, _ => ⟨U, rfl, fun _ _ => rfl, fun i hi => absurd hi (Nat.not_lt_zero _)⟩
  | c :: cs, j, U, h => by
    obtain ⟨u, hu, _⟩ := estim_spec ht ht1 d w c (h c List.mem_cons_self)
    obtain ⟨V, h1, h2, h3⟩ := estimAll_spec ht ht1 d w cs (j + 1) (set1 U j u) fun c hc => h c (List.mem_cons_of_mem _ hc)
    refine ⟨V, ?_, fun i hi => ?_, fun i hi => ?_⟩
    · unfold estimAll; rw [hu]; exact h1
    · rw [h2 i (by omega), set1_ne _ _ (by omega)]
    · cases i with
      | zero => rw [Nat.add_zero, h2 j (by omega), set1_same]; exact hu
      | succ i =>
        have := h3 i (by simpa using hi)
        rw [show j + (i + 1) = j + 1 + i by omega]
        exact this

/-- The Gaussians of non-empty clusters. -/
theorem estimAll_ok {tol : ℝ} (ht : 0 ≤ tol) (ht1 : tol < 1) (d : Nat) (cs : List (List (Nat → ℝ))) (hcs : cs ≠ []) (hc : ∀ c ∈ cs, c ≠ []) (U : Nat → GUnit) :
    ∃ V, estimAll tol d (1 / cs.length) cs 0 U = .ok V ∧ Ok cs.length V ∧ Weights cs.length V ∧ ∀ i (hi : i < cs.length), estim tol d (1 / cs.length) cs[i] = .ok (V i) := by
  obtain ⟨V, h1, _, h3⟩ := estimAll_spec ht ht1 d (1 / cs.length) cs 0 U hc
  have h3' : ∀ i (hi : i < cs.length), estim tol d (1 / cs.length) cs[i] = .ok (V i) := fun i hi => by have := h3 i hi; rwa [Nat.zero_add] at this
  have hlen : (0 : ℝ) < cs.length := by exact_mod_cast List.length_pos_of_ne_nil hcs
  have hw : ∀ i, i < cs.length → (V i).weight = 1 / cs.length ∧ 0 ≤ (V i).det := by
    intro i hi
    obtain ⟨u, hu, h4, _, _, _, h5, _⟩ := estim_spec ht ht1 d (1 / cs.length) cs[i] (hc _ (List.getElem_mem hi))
    rw [h3' i hi] at hu
    cases hu
    exact ⟨h4, h5⟩
  have hsum : ∑ j ∈ range cs.length, (V j).weight = 1 := by
    rw [Finset.sum_congr rfl fun j hj => (hw j (mem_range.mp hj)).1, Finset.sum_const, Finset.card_range, nsmul_eq_mul]
    field_simp
  exact ⟨V, h1, ⟨fun j hj => by rw [(hw j hj).1]; positivity, hsum, fun j hj => (hw j hj).2⟩, ⟨fun j hj => by rw [(hw j hj).1]; positivity, hsum⟩, h3'⟩

/-! ## The whole function -/

/-- **Estimation**, from any clusters that are not empty and for any tolerance below one: it ends with weights that are shares; when the likelihood has settled
the one that is kept is that of the returned Gaussians within the tolerance; and they are those after some number of turns, at most 10000. -/
theorem zGMMCreateEM_spec_partial {tol : ℝ} (ht : 0 ≤ tol) (ht1 : tol < 1) (d : Nat) {n : Nat} (hn : 0 < n) (x : Nat → Nat → ℝ) (cs : List (List (Nat → ℝ)))
    (hcs : cs ≠ []) (hc : ∀ c ∈ cs, c ≠ []) (st : State) : ∃ st' b V, zGMMCreateEM tol d n x cs st = .ok (st', b) ∧
      (∀ i (hi : i < cs.length), estim tol d (1 / cs.length) cs[i] = .ok (V i)) ∧ Ok cs.length st'.units ∧
      (∃ t ≤ 10000, st'.units = turns tol d cs.length n x V t) ∧
      (b = true → ∃ l, st'.ll = some l ∧ |l - logLik tol d cs.length n x st'.units| ≤ tol) := by
  obtain ⟨V, h1, h2, _, h3⟩ := estimAll_ok ht ht1 d cs hcs hc st.units
  refine ⟨(emLoop tol d cs.length n x 10000 ⟨V, st.ll⟩).1, (emLoop tol d cs.length n x 10000 ⟨V, st.ll⟩).2, V, ?_, h3, emLoop_ok ht d hn x 10000 _ h2,
    emLoop_turns tol d cs.length n x 10000 _, fun hb => emLoop_settled tol d cs.length n x 10000 _ _ (Prod.ext rfl hb)⟩
  unfold zGMMCreateEM
  rw [h1]
  rfl

/-- **An empty cluster is divided by its size**: the mean is left as it is and the covariance is the quotient of zero by zero. -/
theorem zGMMCreateEM_empty_violated (tol : ℝ) (d n : Nat) (x : Nat → Nat → ℝ) (cs : List (List (Nat → ℝ))) (st : State) :
    zGMMCreateEM tol d n x ([] :: cs) st = .ub := by
  unfold zGMMCreateEM estimAll estim
  rw [if_pos rfl]
  rfl

/-- **In one dimension the estimate is at least as likely as the Gaussians of the clusters**, in exact arithmetic, when no cluster consists of equal points. -/
theorem zGMMCreateEM_1d {n : Nat} (hn : 0 < n) (x : Nat → Nat → ℝ) (cs : List (List (Nat → ℝ))) (hcs : cs ≠ []) (hc : ∀ c ∈ cs, c ≠ [])
    (hne : ∀ c ∈ cs, ∃ p ∈ c, ∃ q ∈ c, p 0 ≠ q 0) (i1 i2 : Nat) (h1 : i1 < n) (h2 : i2 < n) (h12 : x i1 0 ≠ x i2 0) (st : State) :
    ∃ st' b V, zGMMCreateEM 0 1 n x cs st = .ok (st', b) ∧ (∀ i (hi : i < cs.length), estim 0 1 (1 / cs.length) cs[i] = .ok (V i)) ∧
      likelihood 1 cs.length n x V ≤ likelihood 1 cs.length n x st'.units ∧ Mixture 1 cs.length st'.units := by
  obtain ⟨V, h3, h4, h5, h6⟩ := estimAll_ok le_rfl one_pos 1 cs hcs hc st.units
  have hmix : Mixture 1 cs.length V := by
    refine ⟨h5, fun j hj => ?_⟩
    have hmem : cs[j] ∈ cs := List.getElem_mem hj
    obtain ⟨u, hu, _, _, h8, _, _, h9⟩ := estim_spec le_rfl one_pos 1 (1 / cs.length) cs[j] (hc _ hmem)
    rw [h6 j hj] at hu
    cases hu
    refine h9 rfl ?_
    rw [Matrix.det_fin_one]
    show (V j).cov 0 0 ≠ 0
    rw [h8]
    have hlen : (0 : ℝ) < cs[j].length := by exact_mod_cast List.length_pos_of_ne_nil (hc _ hmem)
    obtain ⟨p, hp, q, hq, hpq⟩ := hne _ hmem
    obtain ⟨r, hr, hrc⟩ : ∃ r ∈ cs[j], r 0 ≠ (V j).core 0 := by
      by_cases hh : p 0 = (V j).core 0
      · exact ⟨q, hq, fun hh' => hpq (hh.trans hh'.symm)⟩
      · exact ⟨p, hp, hh⟩
    have hpos : 0 < (cs[j].map fun p => (p 0 - (V j).core 0) * (p 0 - (V j).core 0)).sum := by
      refine lt_of_lt_of_le (mul_self_pos.mpr (sub_ne_zero.mpr hrc)) ?_
      refine List.single_le_sum (fun y hy => ?_) _ (List.mem_map.mpr ⟨r, hr, rfl⟩)
      obtain ⟨s, _, rfl⟩ := List.mem_map.mp hy
      exact mul_self_nonneg _
    exact (div_pos hpos hlen).ne'
  obtain ⟨t, _, hturn⟩ := emLoop_turns 0 1 cs.length n x 10000 ⟨V, st.ll⟩
  have hk : 0 < cs.length := List.length_pos_of_ne_nil hcs
  have hmono : ∀ t, likelihood 1 cs.length n x V ≤ likelihood 1 cs.length n x (turns 0 1 cs.length n x V t) := by
    intro t
    induction t with
    | zero => exact le_rfl
    | succ t ih => exact ih.trans (em_1d hk hn x hmix i1 i2 h1 h2 h12 t).2
  refine ⟨(emLoop 0 1 cs.length n x 10000 ⟨V, st.ll⟩).1, (emLoop 0 1 cs.length n x 10000 ⟨V, st.ll⟩).2, V, ?_, h6, ?_, ?_⟩
  · unfold zGMMCreateEM
    rw [h3]
    rfl
  · rw [hturn]; exact hmono t
  · rw [hturn]; exact (em_1d hk hn x hmix i1 i2 h1 h2 h12 t).1

/-- Four points in two clusters, two of them different in each. -/
example : ∃ st' b V, zGMMCreateEM 0 1 4 (fun i _ => if i < 2 then i else i + 3) [[fun _ => 5, fun _ => 6], [fun _ => 0, fun _ => 1]] ⟨fun _ => ⟨0, 0, 0, 0, 0⟩, none⟩ = .ok (st', b) ∧
    (∀ i (hi : i < 2), estim 0 1 (1 / ((2 : ℕ) : ℝ)) ([[fun _ => 5, fun _ => 6], [fun _ => 0, fun _ => 1]] : List (List (Nat → ℝ)))[i] = .ok (V i)) ∧
    likelihood 1 2 4 (fun i _ => if i < 2 then i else i + 3) V ≤ likelihood 1 2 4 (fun i _ => if i < 2 then i else i + 3) st'.units ∧ Mixture 1 2 st'.units :=
  zGMMCreateEM_1d (by norm_num) _ [[fun _ => 5, fun _ => 6], [fun _ => 0, fun _ => 1]] (by simp) (by simp) (by simp) 0 1 (by norm_num) (by norm_num) (by norm_num) _

/-! ## One Gaussian -/

/-- With one Gaussian a turn gives the mean and the covariance of all points, whatever it was before. -/
theorem emStep_one {tol : ℝ} (ht : 0 ≤ tol) (d : Nat) {n : Nat} (hn : tol < n) (x : Nat → Nat → ℝ) {U : Nat → GUnit} (h : Ok 1 U) :
    (emStep tol d 1 n x U 0).weight = 1 ∧ (∀ c, (emStep tol d 1 n x U 0).core c = (∑ i ∈ range n, x i c) / n) ∧
      ∀ a b, (emStep tol d 1 n x U 0).cov a b = (∑ i ∈ range n, (x i a - (∑ i ∈ range n, x i a) / n) * (x i b - (∑ i ∈ range n, x i b) / n)) / n := by
  have hg : ∀ p, gamma tol d 1 U p 0 = 1 := fun p => by have := gamma_sum ht d h p; simpa using this
  have hnk : nks tol d 1 n x U 0 = n := by rw [nks_eq _ _ _ _ _ _ _ one_pos]; simp [hg]
  have e : emStep tol d 1 n x U 0 = maximizeUnit tol d n x (fun _ => 1) n := by
    unfold emStep
    rw [if_pos one_pos, hnk]
    simp only [hg]
  have hcore : ∀ c, (emStep tol d 1 n x U 0).core c = (∑ i ∈ range n, x i c) / n := by
    intro c
    rw [e]
    have := loadedMean_eq n x (fun _ => 1) ht hn c
    simp only [one_mul] at this
    exact this
  refine ⟨?_, hcore, fun a b => ?_⟩
  · rw [e]; exact div_self (lt_of_le_of_lt ht hn).ne'
  · rw [← hcore a, ← hcore b, e]
    have := loadedCov_eq n x (fun _ => 1) ht hn (loadedMean tol n x (fun _ => 1) n) a b
    simp only [one_mul] at this
    exact this

/-- **One Gaussian is fitted exactly**: no Gaussian is more likely than the one after a turn. -/
theorem emStep_one_optimal (d : Nat) {n : Nat} (hn : 0 < n) (x : Nat → Nat → ℝ) {U : Nat → GUnit} (h : Ok 1 U)
    (hdet : (toMatrix d (emStep 0 d 1 n x U 0).cov).det ≠ 0) (μ : Nat → ℝ) (C : Nat → Nat → ℝ) (hC : (toMatrix d C).PosDef) :
    ∑ i ∈ range n, Real.log (density d μ C (x i)) ≤ ∑ i ∈ range n, Real.log (density d (emStep 0 d 1 n x U 0).core (emStep 0 d 1 n x U 0).cov (x i)) := by
  have hn' : (0 : ℝ) < n := by exact_mod_cast hn
  obtain ⟨h1, h2, h3⟩ := emStep_one le_rfl d hn' x h
  have hg : ∀ p, gamma 0 d 1 U p 0 = 1 := fun p => by have := gamma_sum le_rfl d h p; simpa using this
  have hpd : (toMatrix d (emStep 0 d 1 n x U 0).cov).PosDef := by
    refine (PosSemidef.posDef_iff_det_ne_zero ?_).mpr hdet
    have e : emStep 0 d 1 n x U 0 = maximizeUnit 0 d n x (fun i => gamma 0 d 1 U (x i) 0) (nks 0 d 1 n x U 0) := if_pos one_pos
    rw [e]
    exact loadedCov_psd le_rfl d n x _ (fun i _ => by rw [hg]; exact zero_le_one) (nks_nonneg le_rfl d n x h 0 one_pos) _
  have hb := gauss_mle (d := d) (n := n) (fun _ => 1) (fun i (a : Fin d) => x i a) n (by simp) hn'.le (fun a => (emStep 0 d 1 n x U 0).core a)
    (fun a => by rw [h2]; simp only [one_mul]; field_simp) (toMatrix d (emStep 0 d 1 n x U 0).cov)
    (fun a b => by
      show (n : ℝ) * (emStep 0 d 1 n x U 0).cov a b = _
      rw [h3, h2, h2]; simp only [one_mul]; field_simp) hpd (toMatrix d C)⁻¹ hC.inv (fun a => μ a)
  simp only [one_mul] at hb
  simp only [log_density hC, log_density hpd, Finset.sum_sub_distrib]
  linarith

/-- The corners of a triangle, from the Gaussian of covariance one and weight one. -/
example (μ : Nat → ℝ) (C : Nat → Nat → ℝ) (hC : (toMatrix 2 C).PosDef) (x : Nat → Nat → ℝ) (hx : x = fun i a => if i = a + 1 then 1 else 0) (U : Nat → GUnit)
    (hU : U = fun _ => ⟨fun _ => 0, fun a b => if a = b then 1 else 0, 1, fun a b => if a = b then 1 else 0, 1⟩) :
    ∑ i ∈ range 3, Real.log (density 2 μ C (x i)) ≤ ∑ i ∈ range 3, Real.log (density 2 (emStep 0 2 1 3 x U 0).core (emStep 0 2 1 3 x U 0).cov (x i)) := by
  have hok : Ok 1 U := by subst hU; exact ⟨fun _ _ => zero_le_one, by simp, fun _ _ => zero_le_one⟩
  refine emStep_one_optimal 2 (by norm_num) x hok ?_ μ C hC
  obtain ⟨_, _, h⟩ := emStep_one (n := 3) le_rfl 2 (by norm_num) x hok
  rw [Matrix.det_fin_two]
  simp only [toMatrix, Matrix.of_apply, h]
  simp only [hx, Finset.sum_range_succ, Finset.sum_range_zero]
  norm_num

/-! ## Small data -/

theorem zMatDet_one (tol : ℝ) (m : Nat → Nat → ℝ) : zMatDet tol 1 m = if |m 0 0| ≤ tol then 0 else m 0 0 := by
  have hp : zMatPivoting 1 m (fun i => i) 0 0 = fun i => i := by
    unfold zMatPivoting
    rw [forUp_of_le (le_refl _)]
    funext i
    unfold swap1
    split_ifs <;> simp_all
  have hs : detStep tol 1 0 (some (1, m, fun i => i)) = if |m 0 0| ≤ tol then none else some (m 0 0, m, fun i => i) := by
    unfold detStep
    simp only [Option.bind_some, hp, ne_eq, not_true_eq_false, if_false, one_mul, Misc.zIsTol, decide_eq_true_eq]
    rw [forUp_of_le (le_refl _)]
  have hf : forUp 0 1 (detStep tol 1) (some (1, m, fun i => i)) = if |m 0 0| ≤ tol then none else some (m 0 0, m, fun i => i) := by
    rw [← hs]; rfl
  unfold zMatDet
  rw [hf]
  by_cases h : |m 0 0| ≤ tol
  · rw [if_pos h, if_pos h]
  · rw [if_neg h, if_neg h]

/-- The density in one dimension. -/
theorem density_1d (μ : Nat → ℝ) (C : Nat → Nat → ℝ) (p : Nat → ℝ) :
    density 1 μ C p = Real.exp (-(1/2) * ((p 0 - μ 0) ^ 2 / C 0 0)) / Real.sqrt (2 * Real.pi * C 0 0) := by
  unfold density qf
  rw [Matrix.det_fin_one, Matrix.inv_subsingleton, pow_one]
  simp only [Finset.univ_unique, Fin.default_eq_zero, Finset.sum_singleton, Matrix.diagonal_apply_eq, Ring.inverse_eq_inv', toMatrix, Matrix.of_apply, Fin.val_zero]
  congr 3
  ring

/-- Two points one micrometre apart. -/
noncomputable def microns : Nat → Nat → ℝ := fun i _ => if i = 0 then 0 else 1 / 1000000

/-- **The likelihood of small data is wrong**: with `zTOL` at 1e-12, two points 1e-6 apart and one Gaussian, the covariance of 2.5e-13 counts as singular
and the density as one, so that the function reports success with the log-likelihood zero, where that of the Gaussian it returns is greater than one. -/
theorem zGMMCreateEM_small_violated (U0 : Nat → GUnit) : ∃ st', zGMMCreateEM (1 / 1000000000000) 1 2 microns [[microns 1, microns 0]] ⟨U0, none⟩ = .ok (st', true) ∧
    st'.ll = some 0 ∧ 1 < likelihood 1 1 2 microns st'.units := by
  have ht : (0 : ℝ) ≤ 1 / 1000000000000 := by norm_num
  have ht1 : (1 / 1000000000000 : ℝ) < 1 := by norm_num
  obtain ⟨V, h1, h2, _, h3⟩ := estimAll_ok ht ht1 1 [[microns 1, microns 0]] (by simp) (by simp) U0
  obtain ⟨u, hu, hw, hcore, hcov, _⟩ := estim_spec ht ht1 1 (1 / (1 : ℕ)) [microns 1, microns 0] (by simp)
  have hV : V 0 = u := by
    have := h3 0 (by simp)
    simp only [List.length_singleton, List.getElem_cons_zero] at this
    rw [hu] at this
    cases this; rfl
  have hc0 := hcore 0 one_pos
  have hcv := hcov 0 0
  rw [hc0] at hcv
  simp only [microns, List.map_cons, List.map_nil, List.sum_cons, List.sum_nil, List.length_cons, List.length_nil, one_ne_zero, if_false, if_true] at hcv
  norm_num at hcv
  have hdet : u.det = 0 := by
    have : u.det = zMatDet (1 / 1000000000000) 1 u.cov := by
      unfold estim at hu
      rw [if_neg (by simp)] at hu
      cases hu; rfl
    rw [this, zMatDet_one, hcv, if_pos (by norm_num [abs_le])]
  have hpdf : ∀ (u : GUnit) p, u.det = 0 → pdf (1 / 1000000000000) 1 u p = 1 := fun u p h => by
    unfold pdf; rw [if_pos (by rw [h, abs_zero]; exact ht)]
  have hll : ∀ W : Nat → GUnit, (W 0).det = 0 → (W 0).weight = 1 → logLik (1 / 1000000000000) 1 1 2 microns W = 0 := by
    intro W hd hw
    rw [logLik_eq]
    refine Finset.sum_eq_zero fun i _ => ?_
    rw [Finset.sum_range_one, hw, hpdf _ _ hd, one_mul, Real.log_one]
  obtain ⟨hw', hm', hc'⟩ := emStep_one (n := 2) ht 1 (by norm_num) microns h2
  have hcv' := hc' 0 0
  simp only [microns, Finset.sum_range_succ, Finset.sum_range_zero, one_ne_zero, if_false, if_true] at hcv'
  norm_num at hcv'
  have hcore' := hm' 0
  simp only [microns, Finset.sum_range_succ, Finset.sum_range_zero, one_ne_zero, if_false, if_true] at hcore'
  norm_num at hcore'
  have hdet' : (emStep (1 / 1000000000000) 1 1 2 microns V 0).det = 0 := by
    have : (emStep (1 / 1000000000000) 1 1 2 microns V 0).det = zMatDet (1 / 1000000000000) 1 (emStep (1 / 1000000000000) 1 1 2 microns V 0).cov := by
      unfold emStep; rw [if_pos one_pos]; rfl
    rw [this, zMatDet_one]
    rw [hcv', if_pos (by norm_num [abs_le])]
  have hl1 := hll V (by rw [hV]; exact hdet) (by rw [hV, hw]; norm_num)
  have hl2 := hll (emStep (1 / 1000000000000) 1 1 2 microns V) hdet' hw'
  refine ⟨⟨emStep (1 / 1000000000000) 1 1 2 microns V, some 0⟩, ?_, rfl, ?_⟩
  · unfold zGMMCreateEM
    rw [h1]
    show Res.ok (emLoop (1 / 1000000000000) 1 1 2 microns (9998 + 1 + 1) ⟨V, none⟩) = _
    congr 1
    rw [emLoop, settled, if_neg (by simp), emLoop]
    dsimp only
    rw [hl1, hl2, settled, if_pos (by norm_num)]
  · have hden : ∀ i, i < 2 → (2 : ℝ) ≤ density 1 (emStep (1 / 1000000000000) 1 1 2 microns V 0).core (emStep (1 / 1000000000000) 1 1 2 microns V 0).cov (microns i) := by
      intro i hi
      rw [density_1d, hcore', hcv']
      have he : (1 / 2 : ℝ) ≤ Real.exp (-(1/2)) := by have := Real.add_one_le_exp (-(1/2) : ℝ); linarith
      have hq : (microns i 0 - 1 / 2000000) ^ 2 = 1 / 4000000000000 := by
        unfold microns
        rcases (by omega : i = 0 ∨ i = 1) with rfl | rfl <;> norm_num
      have hs : Real.sqrt (2 * Real.pi * (1 / 4000000000000)) ≤ 1 / 4 := by
        rw [Real.sqrt_le_left (by norm_num)]
        have := Real.pi_lt_four
        nlinarith
      have hs0 : 0 < Real.sqrt (2 * Real.pi * (1 / 4000000000000)) := Real.sqrt_pos.mpr (by have := Real.pi_pos; positivity)
      rw [hq, div_self (by norm_num), mul_one, le_div_iff₀ hs0]
      linarith
    unfold likelihood
    rw [Finset.sum_range_succ, Finset.sum_range_succ, Finset.sum_range_zero, Finset.sum_range_one, Finset.sum_range_one, hw', one_mul, one_mul]
    have h2 := Real.log_two_gt_d9
    have e0 := Real.log_le_log two_pos (hden 0 (by norm_num))
    have e1 := Real.log_le_log two_pos (hden 1 (by norm_num))
    linarith

/-! ## Criteria -/

/-- The free parameters of a mixture of `k` Gaussians in `d` dimensions: means, symmetric covariances, and weights whose sum is one. -/
def freeParameters (d k : Nat) : Nat := k * d + k * (d * (d + 1) / 2) + (k - 1)

/-- Akaike's criterion: twice the number of free parameters less twice the log-likelihood. -/
def aic (p : Nat) (ll : ℝ) : ℝ := 2 * p - 2 * ll

/-- The Bayesian criterion. -/
noncomputable def bic (p n : Nat) (ll : ℝ) : ℝ := p * Real.log n - 2 * ll

/-- What the function computes is the criterion of mixtures of which only the means are free. -/
theorem zGMMAIC_partial (d k : Nat) (ll : ℝ) : zGMMAIC d k ll = aic (k * d) ll := by
  unfold zGMMAIC aic; push_cast; ring

theorem zGMMBIC_partial (d k n : Nat) (ll : ℝ) : zGMMBIC d k n ll = bic (k * d) n ll := by
  unfold zGMMBIC bic; push_cast; ring

/-- **It is below Akaike's criterion** by at least two for every Gaussian, since covariances and weights are not counted. -/
theorem zGMMAIC_violated (d k : Nat) (hd : 0 < d) (ll : ℝ) : zGMMAIC d k ll + 2 * k ≤ aic (freeParameters d k) ll := by
  rw [zGMMAIC_partial]
  unfold aic freeParameters
  have h1 : 1 ≤ d * (d + 1) / 2 := by
    rw [Nat.le_div_iff_mul_le two_pos]
    nlinarith
  have h2 : k ≤ k * (d * (d + 1) / 2) := Nat.le_mul_of_pos_right k h1
  have h3 : ((k * d + k : ℕ) : ℝ) ≤ (k * d + k * (d * (d + 1) / 2) + (k - 1) : ℕ) := by exact_mod_cast (by omega)
  push_cast at h3 ⊢
  linarith

theorem zGMMBIC_violated (d k n : Nat) (hd : 0 < d) (hk : 0 < k) (hn : 1 < n) (ll : ℝ) : zGMMBIC d k n ll < bic (freeParameters d k) n ll := by
  rw [zGMMBIC_partial]
  unfold bic freeParameters
  have h1 : 1 ≤ d * (d + 1) / 2 := by
    rw [Nat.le_div_iff_mul_le two_pos]
    nlinarith
  have h2 : k ≤ k * (d * (d + 1) / 2) := Nat.le_mul_of_pos_right k h1
  have h3 : ((k * d : ℕ) : ℝ) < (k * d + k * (d * (d + 1) / 2) + (k - 1) : ℕ) := by exact_mod_cast (by omega)
  have h4 : 0 < Real.log n := Real.log_pos (by exact_mod_cast hn)
  have := mul_lt_mul_of_pos_right h3 h4
  linarith

/-- **It chooses too many Gaussians**: in the plane, a second Gaussian that adds three to the log-likelihood is preferred, where Akaike's criterion, which charges
six parameters for it, rejects it. -/
theorem zGMMAIC_choice_violated (l1 l2 : ℝ) (h : l2 = l1 + 3) : zGMMAIC 2 2 l2 < zGMMAIC 2 1 l1 ∧ aic (freeParameters 2 1) l1 < aic (freeParameters 2 2) l2 := by
  subst h
  constructor
  · unfold zGMMAIC; norm_num; linarith
  · have e1 : freeParameters 2 1 = 5 := by decide
    have e2 : freeParameters 2 2 = 11 := by decide
    rw [e1, e2]
    unfold aic; norm_num; linarith

end Zm.GMM
