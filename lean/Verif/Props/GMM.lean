import Verif.Model.GMM
import Verif.Props.GMMMath
import Verif.Props.Det
import Verif.Props.Stat

/-! # Gaussian mixtures: responsibilities, weights, covariances; the likelihood never decreases -/

set_option linter.unusedSectionVars false

namespace Zm.GMM
open Zm LE Finset Matrix

/-! ## Specification -/

/-- The density of the Gaussian of mean μ and covariance C. -/
noncomputable def density (d : Nat) (μ : Nat → ℝ) (C : Nat → Nat → ℝ) (p : Nat → ℝ) : ℝ :=
  Real.exp (-(1/2) * qf (toMatrix d C)⁻¹ (fun a : Fin d => p a - μ a)) / Real.sqrt ((2 * Real.pi) ^ d * (toMatrix d C).det)

/-- The log-likelihood of the points under the mixture of `k` Gaussians. -/
noncomputable def likelihood (d k n : Nat) (x : Nat → Nat → ℝ) (U : Nat → GUnit) : ℝ :=
  ∑ i ∈ range n, Real.log (∑ j ∈ range k, (U j).weight * density d (U j).core (U j).cov (x i))

/-- The weights of a mixture. -/
def Weights (k : Nat) (U : Nat → GUnit) : Prop := (∀ j, j < k → 0 < (U j).weight) ∧ ∑ j ∈ range k, (U j).weight = 1

/-- A Gaussian whose covariance is positive definite, with the inverse and the determinant that go with it, this above the tolerance. -/
structure Regular (tol : ℝ) (d : Nat) (u : GUnit) : Prop where
  pd : (toMatrix d u.cov).PosDef
  inv : toMatrix d u.inv = (toMatrix d u.cov)⁻¹
  det : u.det = (toMatrix d u.cov).det
  big : tol < u.det

/-! ## Sums -/

theorem sumUp (n : Nat) (f : Nat → ℝ) : forUp 0 n (fun i s => s + f i) 0 = ∑ i ∈ range n, f i := by
  rw [forUp_add 0 n f 0 (Nat.zero_le _), zero_add, ← Finset.range_eq_Ico]

theorem quad_eq (d : Nat) (P : Nat → Nat → ℝ) (e : Nat → ℝ) : quad d P e = qf (toMatrix d P) (fun a : Fin d => e a) := by
  unfold quad qf toMatrix
  rw [sumUp d fun a => e a * forUp 0 d (fun b t => t + P a b * e b) 0, Finset.sum_range]
  refine Finset.sum_congr rfl fun a _ => ?_
  rw [sumUp d fun b => P a b * e b, Finset.sum_range, Finset.mul_sum]
  exact Finset.sum_congr rfl fun b _ => by rw [Matrix.of_apply]; ring

theorem pdf_regular {tol : ℝ} (ht : 0 ≤ tol) {d : Nat} {u : GUnit} (h : Regular tol d u) (p : Nat → ℝ) : pdf tol d u p = density d u.core u.cov p := by
  unfold pdf density
  have hp : 0 < u.det := lt_of_le_of_lt ht h.big
  rw [if_neg (by rw [abs_of_pos hp]; exact not_le.mpr h.big), quad_eq, h.inv, h.det]
  rfl

/-- A density is positive, unless the determinant is a negative number. -/
theorem pdf_pos {tol : ℝ} (ht : 0 ≤ tol) (d : Nat) {u : GUnit} (h : 0 ≤ u.det) (p : Nat → ℝ) : 0 < pdf tol d u p := by
  unfold pdf
  by_cases hd : |u.det| ≤ tol
  · rw [if_pos hd]; exact one_pos
  · rw [if_neg hd]
    have h0 : 0 < u.det := by
      rw [abs_of_nonneg h] at hd
      exact lt_of_le_of_lt ht (not_le.mp hd)
    have : 0 < Real.pi := Real.pi_pos
    positivity

theorem loadDet_eq (tol : ℝ) (d k : Nat) (U : Nat → GUnit) (p : Nat → ℝ) : loadDet tol d k U p = ∑ j ∈ range k, (U j).weight * pdf tol d (U j) p := by
  exact sumUp k fun j => (U j).weight * pdf tol d (U j) p

/-- What holds of the Gaussians whatever the data: weights and determinants that are not negative. -/
structure Ok (k : Nat) (U : Nat → GUnit) : Prop where
  w : ∀ j, j < k → 0 ≤ (U j).weight
  one : ∑ j ∈ range k, (U j).weight = 1
  det : ∀ j, j < k → 0 ≤ (U j).det

/-- The density of the mixture is positive, so the divisions by it are defined. -/
theorem loadDet_pos {tol : ℝ} (ht : 0 ≤ tol) (d : Nat) {k : Nat} {U : Nat → GUnit} (h : Ok k U) (p : Nat → ℝ) : 0 < loadDet tol d k U p := by
  rw [loadDet_eq]
  have h0 : ∀ j ∈ range k, 0 ≤ (U j).weight * pdf tol d (U j) p := fun j hj =>
    mul_nonneg (h.w j (mem_range.mp hj)) (pdf_pos ht d (h.det j (mem_range.mp hj)) p).le
  obtain ⟨j, hj, hw⟩ : ∃ j ∈ range k, 0 < (U j).weight := by
    by_contra hc
    push Not at hc
    have := Finset.sum_nonpos hc
    rw [h.one] at this
    linarith
  exact lt_of_lt_of_le (mul_pos hw (pdf_pos ht d (h.det j (mem_range.mp hj)) p)) (Finset.single_le_sum h0 hj)

/-- **Responsibilities** are shares: not negative, with the sum one at every point. -/
theorem gamma_nonneg {tol : ℝ} (ht : 0 ≤ tol) (d : Nat) {k : Nat} {U : Nat → GUnit} (h : Ok k U) (p : Nat → ℝ) (j : Nat) (hj : j < k) :
    0 ≤ gamma tol d k U p j :=
  div_nonneg (mul_nonneg (h.w j hj) (pdf_pos ht d (h.det j hj) p).le) (loadDet_pos ht d h p).le

theorem gamma_sum {tol : ℝ} (ht : 0 ≤ tol) (d : Nat) {k : Nat} {U : Nat → GUnit} (h : Ok k U) (p : Nat → ℝ) :
    ∑ j ∈ range k, gamma tol d k U p j = 1 := by
  unfold gamma
  rw [← Finset.sum_div, ← loadDet_eq]
  exact div_self (loadDet_pos ht d h p).ne'

theorem addAt_spec (g : Nat → ℝ) (k : Nat) (v : Nat → ℝ) : forUp 0 k (fun j nk => set1 nk j (nk j + g j)) v = fun j => if j < k then v j + g j else v j := by
  have := forUp_inv (lo := 0) (hi := k) (fun j nk => set1 nk j (nk j + g j)) v (fun i w => w = fun j => if j < i then v j + g j else v j) (Nat.zero_le _)
    (by funext j; simp)
    (by
      intro i w _ _ hw
      subst hw
      funext j
      by_cases hj : j = i
      · subst hj; rw [set1_same]; beta_reduce; rw [if_neg (lt_irrefl _), if_pos (Nat.lt_succ_self _)]
      · rw [set1_ne _ _ hj]
        by_cases h2 : j < i
        · rw [if_pos h2, if_pos (by omega)]
        · rw [if_neg h2, if_neg (by omega)])
  exact this

/-- The load of a Gaussian is the sum of its responsibilities. -/
theorem nks_eq (tol : ℝ) (d k n : Nat) (x : Nat → Nat → ℝ) (U : Nat → GUnit) (j : Nat) (hj : j < k) :
    nks tol d k n x U j = ∑ i ∈ range n, gamma tol d k U (x i) j := by
  unfold nks
  have := forUp_inv (lo := 0) (hi := n) (fun i nk => forUp 0 k (fun j nk => set1 nk j (nk j + gamma tol d k U (x i) j)) nk) (fun _ => 0)
    (fun i w => w j = ∑ i ∈ range i, gamma tol d k U (x i) j) (Nat.zero_le _) (by simp)
    (by
      intro i w _ _ hw
      beta_reduce
      rw [addAt_spec (fun j => gamma tol d k U (x i) j) k w]
      beta_reduce
      rw [if_pos hj, hw, Finset.sum_range_succ])
  exact this

/-- The loads add up to the number of points. -/
theorem nks_sum {tol : ℝ} (ht : 0 ≤ tol) (d n : Nat) {k : Nat} (x : Nat → Nat → ℝ) {U : Nat → GUnit} (h : Ok k U) :
    ∑ j ∈ range k, nks tol d k n x U j = n := by
  rw [Finset.sum_congr rfl fun j hj => nks_eq tol d k n x U j (mem_range.mp hj), Finset.sum_comm]
  simp [gamma_sum ht d h]

theorem nks_nonneg {tol : ℝ} (ht : 0 ≤ tol) (d n : Nat) {k : Nat} (x : Nat → Nat → ℝ) {U : Nat → GUnit} (h : Ok k U) (j : Nat) (hj : j < k) :
    0 ≤ nks tol d k n x U j := by
  rw [nks_eq tol d k n x U j hj]
  exact Finset.sum_nonneg fun i _ => gamma_nonneg ht d h (x i) j hj

theorem logLik_eq (tol : ℝ) (d k n : Nat) (x : Nat → Nat → ℝ) (U : Nat → GUnit) :
    logLik tol d k n x U = ∑ i ∈ range n, Real.log (∑ j ∈ range k, (U j).weight * pdf tol d (U j) (x i)) := by
  unfold logLik
  rw [sumUp n fun i => Real.log (loadDet tol d k U (x i))]
  simp only [loadDet_eq]

/-- The likelihood of regular Gaussians is the log-likelihood of the points. -/
theorem logLik_regular {tol : ℝ} (ht : 0 ≤ tol) (d k n : Nat) (x : Nat → Nat → ℝ) (U : Nat → GUnit) (h : ∀ j, j < k → Regular tol d (U j)) :
    logLik tol d k n x U = likelihood d k n x U := by
  rw [logLik_eq]
  unfold likelihood
  refine Finset.sum_congr rfl fun i _ => congrArg _ (Finset.sum_congr rfl fun j hj => ?_)
  rw [pdf_regular ht (h j (mem_range.mp hj))]

/-! ## Mean and covariance -/

theorem sumVec (n : Nat) (x : Nat → Nat → ℝ) (g : Nat → ℝ) : forUp 0 n (fun i m c => m c + g i * x i c) (fun _ => 0) = fun c => ∑ i ∈ range n, g i * x i c := by
  have := forUp_inv (lo := 0) (hi := n) (fun i (m : Nat → ℝ) c => m c + g i * x i c) (fun _ => 0) (fun k m => m = fun c => ∑ i ∈ range k, g i * x i c) (Nat.zero_le _)
    (by simp) (by
      intro i m _ _ hm
      subst hm
      funext c
      rw [Finset.sum_range_succ])
  exact this

theorem sumDyad (n : Nat) (u v : Nat → Nat → ℝ) : forUp 0 n (fun i m => addDyad m (u i) (v i)) (fun _ _ => 0) = fun a b => ∑ i ∈ range n, u i a * v i b := by
  have := forUp_inv (lo := 0) (hi := n) (fun i (m : Nat → Nat → ℝ) => addDyad m (u i) (v i)) (fun _ _ => 0) (fun k m => m = fun a b => ∑ i ∈ range k, u i a * v i b)
    (Nat.zero_le _) (by simp) (by
      intro i m _ _ hm
      subst hm
      funext a b
      unfold addDyad
      rw [Finset.sum_range_succ])
  exact this

theorem loadedMean_eq {tol : ℝ} (n : Nat) (x : Nat → Nat → ℝ) (g : Nat → ℝ) {nk : ℝ} (ht : 0 ≤ tol) (h : tol < nk) (c : Nat) :
    loadedMean tol n x g nk c = (∑ i ∈ range n, g i * x i c) / nk := by
  unfold loadedMean vecDiv
  rw [if_neg (by rw [abs_of_pos (lt_of_le_of_lt ht h)]; exact not_le.mpr h), sumVec]

theorem loadedCov_eq {tol : ℝ} (n : Nat) (x : Nat → Nat → ℝ) (g : Nat → ℝ) {nk : ℝ} (ht : 0 ≤ tol) (h : tol < nk) (core : Nat → ℝ) (a b : Nat) :
    loadedCov tol n x g nk core a b = (∑ i ∈ range n, g i * ((x i a - core a) * (x i b - core b))) / nk := by
  unfold loadedCov matDiv
  rw [if_neg (by rw [abs_of_pos (lt_of_le_of_lt ht h)]; exact not_le.mpr h), sumDyad]
  unfold err
  congr 1
  exact Finset.sum_congr rfl fun i _ => by ring

/-- A sum of weighted dyads is symmetric and positive semidefinite. -/
theorem dyads_psd (d n : Nat) (g : Nat → ℝ) (hg : ∀ i, i < n → 0 ≤ g i) (e : Nat → Nat → ℝ) (c : ℝ) (hc : 0 ≤ c) :
    (toMatrix d fun a b => c * ∑ i ∈ range n, g i * (e i a * e i b)).PosSemidef := by
  refine PosSemidef.of_dotProduct_mulVec_nonneg ?_ fun v => ?_
  · ext a b
    simp only [toMatrix, Matrix.conjTranspose_apply, Matrix.of_apply, star_trivial]
    congr 1
    exact Finset.sum_congr rfl fun i _ => by ring
  · rw [star_trivial, ← qf_eq]
    have : qf (toMatrix d fun a b => c * ∑ i ∈ range n, g i * (e i a * e i b)) v = c * ∑ i ∈ range n, g i * (∑ a : Fin d, v a * e i a) ^ 2 := by
      unfold qf toMatrix
      simp only [Matrix.of_apply, Finset.mul_sum, Finset.sum_mul]
      rw [Finset.sum_congr rfl fun a _ => Finset.sum_comm, Finset.sum_comm]
      refine Finset.sum_congr rfl fun i _ => ?_
      rw [sq, Finset.sum_mul_sum, Finset.mul_sum, Finset.mul_sum]
      refine Finset.sum_congr rfl fun a _ => ?_
      rw [Finset.mul_sum, Finset.mul_sum]
      exact Finset.sum_congr rfl fun b _ => by ring
    rw [this]
    exact mul_nonneg hc (Finset.sum_nonneg fun i hi => mul_nonneg (hg i (mem_range.mp hi)) (sq_nonneg _))

/-- **Covariances** are symmetric and positive semidefinite. -/
theorem loadedCov_psd {tol : ℝ} (ht : 0 ≤ tol) (d n : Nat) (x : Nat → Nat → ℝ) (g : Nat → ℝ) (hg : ∀ i, i < n → 0 ≤ g i) {nk : ℝ} (hnk : 0 ≤ nk)
    (core : Nat → ℝ) : (toMatrix d (loadedCov tol n x g nk core)).PosSemidef := by
  by_cases h : tol < nk
  · have := dyads_psd d n g hg (fun i a => x i a - core a) nk⁻¹ (inv_nonneg.mpr hnk)
    convert this using 1
    congr 1
    funext a b
    rw [loadedCov_eq n x g ht h]
    ring
  · have := dyads_psd d n g hg (fun i a => x i a - core a) 1 zero_le_one
    convert this using 1
    congr 1
    funext a b
    unfold loadedCov matDiv err
    rw [if_pos (by rw [abs_of_nonneg hnk]; exact not_lt.mp h), sumDyad, one_mul]
    exact Finset.sum_congr rfl fun i _ => by ring

/-- The determinant that is stored is not negative. -/
theorem det_nonneg {tol : ℝ} (ht : 0 ≤ tol) (d : Nat) (m : Nat → Nat → ℝ) (h : (toMatrix d m).PosSemidef) : 0 ≤ zMatDet tol d m := by
  rcases zMatDet_cases tol ht d m with h' | ⟨h', _⟩
  · rw [h']; exact h.det_nonneg
  · rw [h']

theorem maximizeUnit_det_nonneg {tol : ℝ} (ht : 0 ≤ tol) (d n : Nat) (x : Nat → Nat → ℝ) (g : Nat → ℝ) (hg : ∀ i, i < n → 0 ≤ g i) {nk : ℝ} (hnk : 0 ≤ nk) :
    0 ≤ (maximizeUnit tol d n x g nk).det :=
  det_nonneg ht d _ (loadedCov_psd ht d n x g hg hnk _)

/-- **The weights are shares after every turn**, whatever the Gaussians, and the determinants are not negative. -/
theorem emStep_ok {tol : ℝ} (ht : 0 ≤ tol) (d : Nat) {k n : Nat} (hn : 0 < n) (x : Nat → Nat → ℝ) {U : Nat → GUnit} (h : Ok k U) : Ok k (emStep tol d k n x U) := by
  have e : ∀ j, j < k → emStep tol d k n x U j = maximizeUnit tol d n x (fun i => gamma tol d k U (x i) j) (nks tol d k n x U j) := fun j hj => if_pos hj
  refine ⟨fun j hj => ?_, ?_, fun j hj => ?_⟩
  · rw [e j hj]; exact div_nonneg (nks_nonneg ht d n x h j hj) (Nat.cast_nonneg _)
  · rw [Finset.sum_congr rfl fun j hj => congrArg GUnit.weight (e j (mem_range.mp hj))]
    show ∑ j ∈ range k, nks tol d k n x U j / n = 1
    rw [← Finset.sum_div, nks_sum ht d n x h]
    exact div_self (by exact_mod_cast hn.ne')
  · rw [e j hj]
    exact maximizeUnit_det_nonneg ht d n x _ (fun i _ => gamma_nonneg ht d h (x i) j hj) (nks_nonneg ht d n x h j hj)

/-! ## The likelihood never decreases -/

theorem Regular.ok {tol : ℝ} (ht : 0 ≤ tol) {d k : Nat} {U : Nat → GUnit} (h : ∀ j, j < k → Regular tol d (U j)) (hw : Weights k U) : Ok k U :=
  ⟨fun j hj => (hw.1 j hj).le, hw.2, fun j hj => (lt_of_le_of_lt ht (h j hj).big).le⟩

theorem log_density {d : Nat} {C : Nat → Nat → ℝ} (h : (toMatrix d C).PosDef) (μ p : Nat → ℝ) :
    Real.log (density d μ C p) = logG (toMatrix d C)⁻¹ (fun a : Fin d => μ a) (fun a => p a) - (1/2) * Real.log ((2 * Real.pi) ^ d) := by
  unfold density logG
  have h1 : (0 : ℝ) < (2 * Real.pi) ^ d := by have := Real.pi_pos; positivity
  have h2 := h.det_pos
  rw [Real.log_div (Real.exp_ne_zero _) (Real.sqrt_ne_zero'.mpr (mul_pos h1 h2)), Real.log_exp, Real.log_sqrt (mul_pos h1 h2).le,
    Real.log_mul h1.ne' h2.ne', Matrix.det_nonsing_inv, Ring.inverse_eq_inv', Real.log_inv]
  ring

theorem density_pos {d : Nat} {C : Nat → Nat → ℝ} (h : (toMatrix d C).PosDef) (μ p : Nat → ℝ) : 0 < density d μ C p := by
  unfold density
  have h1 : (0 : ℝ) < (2 * Real.pi) ^ d := by have := Real.pi_pos; positivity
  have h2 := h.det_pos
  positivity

/-- **The likelihood never decreases.**  One turn of the method, from Gaussians that are regular to Gaussians that are regular, does not decrease the
log-likelihood of the points. -/
theorem em_monotone {tol : ℝ} (ht : 0 ≤ tol) (d : Nat) {k n : Nat} (hk : 0 < k) (hn : 0 < n) (x : Nat → Nat → ℝ) (U : Nat → GUnit) (hw : Weights k U)
    (hU : ∀ j, j < k → Regular tol d (U j)) (hnk : ∀ j, j < k → tol < nks tol d k n x U j)
    (hU' : ∀ j, j < k → Regular tol d (emStep tol d k n x U j)) :
    likelihood d k n x U ≤ likelihood d k n x (emStep tol d k n x U) := by
  have hok := Regular.ok ht hU hw
  have e : ∀ j, j < k → emStep tol d k n x U j = maximizeUnit tol d n x (fun i => gamma tol d k U (x i) j) (nks tol d k n x U j) := fun j hj => if_pos hj
  have hn0 : (0 : ℝ) < n := by exact_mod_cast hn
  have hnk0 : ∀ j, j < k → 0 < nks tol d k n x U j := fun j hj => lt_of_le_of_lt ht (hnk j hj)
  have hw' : ∀ j, j < k → (emStep tol d k n x U j).weight = nks tol d k n x U j / n := fun j hj => by rw [e j hj]; rfl
  have hw0' : ∀ j, j < k → 0 < (emStep tol d k n x U j).weight := fun j hj => by rw [hw' j hj]; exact div_pos (hnk0 j hj) hn0
  set V := emStep tol d k n x U with hV
  have hdp : ∀ j, j < k → ∀ p, 0 < density d (U j).core (U j).cov p := fun j hj p => density_pos (hU j hj).pd _ _
  have hdp' : ∀ j, j < k → ∀ p, 0 < density d (V j).core (V j).cov p := fun j hj p => density_pos (hU' j hj).pd _ _
  have hgam : ∀ i j, j < k → gamma tol d k U (x i) j = (U j).weight * density d (U j).core (U j).cov (x i) /
      ∑ l ∈ range k, (U l).weight * density d (U l).core (U l).cov (x i) := by
    intro i j hj
    unfold gamma
    rw [loadDet_eq, pdf_regular ht (hU j hj), Finset.sum_congr rfl fun l hl => by rw [pdf_regular ht (hU l (mem_range.mp hl))]]
  -- Jensen's inequality at every point
  have h1 : ∀ i ∈ range n, ∑ j ∈ range k, gamma tol d k U (x i) j * (Real.log ((V j).weight * density d (V j).core (V j).cov (x i)) -
      Real.log ((U j).weight * density d (U j).core (U j).cov (x i))) ≤
      Real.log (∑ j ∈ range k, (V j).weight * density d (V j).core (V j).cov (x i)) - Real.log (∑ j ∈ range k, (U j).weight * density d (U j).core (U j).cov (x i)) := by
    intro i _
    have := log_sum_ge hk (fun j => (U j).weight * density d (U j).core (U j).cov (x i)) (fun j => (V j).weight * density d (V j).core (V j).cov (x i))
      (fun j hj => mul_pos (hw.1 j hj) (hdp j hj _)) (fun j hj => mul_pos (hw0' j hj) (hdp' j hj _))
    refine le_trans (le_of_eq ?_) this
    exact Finset.sum_congr rfl fun j hj => by rw [hgam i j (mem_range.mp hj)]
  have h2 := Finset.sum_le_sum h1
  rw [Finset.sum_sub_distrib] at h2
  -- the Gaussians and the weights are the best ones for the responsibilities
  have h3 : ∀ j ∈ range k, ∑ i ∈ range n, gamma tol d k U (x i) j * Real.log (density d (U j).core (U j).cov (x i)) ≤
      ∑ i ∈ range n, gamma tol d k U (x i) j * Real.log (density d (V j).core (V j).cov (x i)) := by
    intro j hj
    have hj := mem_range.mp hj
    have hN := nks_eq tol d k n x U j hj
    have hcore : ∀ c, (V j).core c = (∑ i ∈ range n, gamma tol d k U (x i) j * x i c) / nks tol d k n x U j := fun c => by
      rw [e j hj]; exact loadedMean_eq n x _ ht (hnk j hj) c
    have hcov : ∀ a b, (V j).cov a b = (∑ i ∈ range n, gamma tol d k U (x i) j * ((x i a - (V j).core a) * (x i b - (V j).core b))) / nks tol d k n x U j := fun a b => by
      rw [e j hj]; exact loadedCov_eq n x _ ht (hnk j hj) _ a b
    have hb := gauss_mle (d := d) (n := n) (fun i => gamma tol d k U (x i) j) (fun i (a : Fin d) => x i a) (nks tol d k n x U j) hN (hnk0 j hj).le (fun a => (V j).core a)
      (fun a => by rw [hcore]; field_simp [(hnk0 j hj).ne']) (toMatrix d (V j).cov)
      (fun a b => by
        show nks tol d k n x U j * (V j).cov a b = _
        rw [hcov a b]; field_simp [(hnk0 j hj).ne']) (hU' j hj).pd (toMatrix d (U j).cov)⁻¹ (hU j hj).pd.inv (fun a => (U j).core a)
    simp only [log_density (hU j hj).pd, log_density (hU' j hj).pd, mul_sub, Finset.sum_sub_distrib]
    linarith
  have h4 := gibbs (nks tol d k n x U) (fun j => (U j).weight) n (nks_sum ht d n x hok).symm hn0 hnk0 hw.1 hw.2.le
  have h5 : ∑ i ∈ range n, ∑ j ∈ range k, gamma tol d k U (x i) j * (Real.log ((V j).weight * density d (V j).core (V j).cov (x i)) -
      Real.log ((U j).weight * density d (U j).core (U j).cov (x i))) =
      ∑ j ∈ range k, (∑ i ∈ range n, gamma tol d k U (x i) j * Real.log (density d (V j).core (V j).cov (x i)) -
        ∑ i ∈ range n, gamma tol d k U (x i) j * Real.log (density d (U j).core (U j).cov (x i))) +
      (∑ j ∈ range k, nks tol d k n x U j * Real.log (nks tol d k n x U j / n) - ∑ j ∈ range k, nks tol d k n x U j * Real.log (U j).weight) := by
    rw [Finset.sum_comm, ← Finset.sum_sub_distrib, ← Finset.sum_add_distrib]
    refine Finset.sum_congr rfl fun j hj => ?_
    have hj := mem_range.mp hj
    rw [← Finset.sum_sub_distrib]
    rw [← hw' j hj]
    have hs : nks tol d k n x U j * Real.log (V j).weight - nks tol d k n x U j * Real.log (U j).weight =
        ∑ i ∈ range n, gamma tol d k U (x i) j * (Real.log (V j).weight - Real.log (U j).weight) := by
      rw [← Finset.sum_mul, ← nks_eq tol d k n x U j hj]; ring
    rw [hs, ← Finset.sum_add_distrib]
    refine Finset.sum_congr rfl fun i _ => ?_
    rw [Real.log_mul (hw0' j hj).ne' (hdp' j hj _).ne', Real.log_mul (hw.1 j hj).ne' (hdp j hj _).ne']
    ring
  have h6 := Finset.sum_le_sum h3
  rw [h5, Finset.sum_sub_distrib] at h2
  unfold likelihood
  linarith

/-! ## With exact arithmetic the Gaussians are regular whenever their covariances are -/

theorem not_singular {d : Nat} {m : Nat → Nat → ℝ} (h : (toMatrix d m).det ≠ 0) : ¬ Singular d m := by
  rintro ⟨z, ⟨j, hj, hz⟩, h0⟩
  have : (toMatrix d m) *ᵥ (fun a : Fin d => z a) = 0 := by
    funext i
    have := h0 i i.2
    rw [Finset.sum_range] at this
    simpa [Matrix.mulVec, dotProduct, toMatrix] using this
  have h1 := Matrix.eq_zero_of_mulVec_eq_zero h this
  exact hz (congrFun h1 ⟨j, hj⟩)

theorem matInv_eq {d : Nat} {m : Nat → Nat → ℝ} (h : (toMatrix d m).det ≠ 0) : toMatrix d (matInv 0 d m) = (toMatrix d m)⁻¹ := by
  obtain ⟨x, hx, hm⟩ := zMatInv_correct_partial d m (not_singular h)
  have e : toMatrix d m * toMatrix d (matInv 0 d m) = 1 := by
    ext i j
    rw [Matrix.mul_apply, Matrix.one_apply]
    have := hm i i.2 j
    rw [Finset.sum_range] at this
    unfold matInv
    rw [hx]
    simp only [toMatrix, Matrix.of_apply, Fin.is_lt, dite_true, Fin.ext_iff]
    simpa using this
  exact (Matrix.inv_eq_right_inv e).symm

theorem maximizeUnit_regular (d n : Nat) (x : Nat → Nat → ℝ) (g : Nat → ℝ) (hg : ∀ i, i < n → 0 ≤ g i) {nk : ℝ} (hnk : 0 ≤ nk)
    (h : (toMatrix d (maximizeUnit 0 d n x g nk).cov).det ≠ 0) : Regular 0 d (maximizeUnit 0 d n x g nk) := by
  have hp := loadedCov_psd le_rfl d n x g hg hnk (loadedMean 0 n x g nk)
  have hpd := hp.posDef_iff_det_ne_zero.mpr h
  exact ⟨hpd, matInv_eq h, zMatDet_correct d _, by rw [show (maximizeUnit 0 d n x g nk).det = _ from zMatDet_correct d _]; exact hpd.det_pos⟩

theorem gamma_pos {tol : ℝ} (ht : 0 ≤ tol) (d : Nat) {k : Nat} {U : Nat → GUnit} (h : Ok k U) (p : Nat → ℝ) (j : Nat) (hj : j < k) (hw : 0 < (U j).weight) :
    0 < gamma tol d k U p j :=
  div_pos (mul_pos hw (pdf_pos ht d (h.det j hj) p)) (loadDet_pos ht d h p)

theorem nks_pos {tol : ℝ} (ht : 0 ≤ tol) (d : Nat) {k n : Nat} (hn : 0 < n) (x : Nat → Nat → ℝ) {U : Nat → GUnit} (h : Ok k U) (j : Nat) (hj : j < k)
    (hw : 0 < (U j).weight) : 0 < nks tol d k n x U j := by
  rw [nks_eq tol d k n x U j hj]
  exact Finset.sum_pos (fun i _ => gamma_pos ht d h (x i) j hj hw) (Finset.nonempty_range_iff.mpr hn.ne')

/-- A mixture of regular Gaussians. -/
def Mixture (d k : Nat) (U : Nat → GUnit) : Prop := Weights k U ∧ ∀ j, j < k → Regular 0 d (U j)

/-- **The likelihood never decreases in exact arithmetic**, unless a covariance becomes singular; the result is again a mixture. -/
theorem emStep_monotone (d : Nat) {k n : Nat} (hk : 0 < k) (hn : 0 < n) (x : Nat → Nat → ℝ) {U : Nat → GUnit} (h : Mixture d k U)
    (hdet : ∀ j, j < k → (toMatrix d (emStep 0 d k n x U j).cov).det ≠ 0) :
    Mixture d k (emStep 0 d k n x U) ∧ likelihood d k n x U ≤ likelihood d k n x (emStep 0 d k n x U) := by
  have hok := Regular.ok le_rfl h.2 h.1
  have hnk : ∀ j, j < k → 0 < nks 0 d k n x U j := fun j hj => nks_pos le_rfl d hn x hok j hj (h.1.1 j hj)
  have e : ∀ j, j < k → emStep 0 d k n x U j = maximizeUnit 0 d n x (fun i => gamma 0 d k U (x i) j) (nks 0 d k n x U j) := fun j hj => if_pos hj
  have hreg : ∀ j, j < k → Regular 0 d (emStep 0 d k n x U j) := by
    intro j hj
    have := hdet j hj
    rw [e j hj] at this ⊢
    exact maximizeUnit_regular d n x _ (fun i _ => gamma_nonneg le_rfl d hok (x i) j hj) (hnk j hj).le this
  refine ⟨⟨⟨fun j hj => ?_, (emStep_ok le_rfl d hn x hok).one⟩, hreg⟩, em_monotone le_rfl d hk hn x U h.1 h.2 hnk hreg⟩
  rw [e j hj]
  exact div_pos (hnk j hj) (by exact_mod_cast hn)

/-! ## The iteration -/

/-- The Gaussians after `t` turns. -/
noncomputable def turns (tol : ℝ) (d k n : Nat) (x : Nat → Nat → ℝ) (U : Nat → GUnit) (t : Nat) : Nat → GUnit := (emStep tol d k n x)^[t] U

theorem turns_succ (tol : ℝ) (d k n : Nat) (x : Nat → Nat → ℝ) (U : Nat → GUnit) (t : Nat) :
    turns tol d k n x U (t + 1) = emStep tol d k n x (turns tol d k n x U t) := Function.iterate_succ_apply' _ _ _

theorem emLoop_turns (tol : ℝ) (d k n : Nat) (x : Nat → Nat → ℝ) : ∀ (f : Nat) (st : State), ∃ t ≤ f,
    (emLoop tol d k n x f st).1.units = turns tol d k n x st.units t
  | 0, st => ⟨0, le_rfl, rfl⟩
  | f + 1, st => by
    unfold emLoop
    by_cases hs : settled tol st.ll (logLik tol d k n x st.units) = true
    · rw [if_pos hs]; exact ⟨0, Nat.zero_le _, rfl⟩
    · rw [if_neg hs]
      obtain ⟨t, ht, h⟩ := emLoop_turns tol d k n x f ⟨emStep tol d k n x st.units, some (logLik tol d k n x st.units)⟩
      exact ⟨t + 1, by omega, h⟩

/-- **When the iteration has settled the likelihood that is kept is that of the Gaussians that are returned**, within the tolerance. -/
theorem emLoop_settled (tol : ℝ) (d k n : Nat) (x : Nat → Nat → ℝ) : ∀ (f : Nat) (st st' : State), emLoop tol d k n x f st = (st', true) →
    ∃ l, st'.ll = some l ∧ |l - logLik tol d k n x st'.units| ≤ tol
  | 0, st, st', h => by cases h
  | f + 1, st, st', h => by
    unfold emLoop at h
    by_cases hs : settled tol st.ll (logLik tol d k n x st.units) = true
    · rw [if_pos hs] at h
      cases h
      unfold settled at hs
      cases hl : st.ll with
      | none => rw [hl] at hs; cases hs
      | some l => rw [hl] at hs; exact ⟨l, rfl, of_decide_eq_true hs⟩
    · rw [if_neg hs] at h
      exact emLoop_settled tol d k n x f _ st' h

/-- The shares are kept along the whole iteration. -/
theorem emLoop_ok {tol : ℝ} (ht : 0 ≤ tol) (d : Nat) {k n : Nat} (hn : 0 < n) (x : Nat → Nat → ℝ) : ∀ (f : Nat) (st : State), Ok k st.units →
    Ok k (emLoop tol d k n x f st).1.units
  | 0, _, h => h
  | f + 1, st, h => by
    unfold emLoop
    by_cases hs : settled tol st.ll (logLik tol d k n x st.units) = true
    · rw [if_pos hs]; exact h
    · rw [if_neg hs]
      exact emLoop_ok ht d hn x f _ (emStep_ok ht d hn x h)

theorem turns_monotone (d : Nat) {k n : Nat} (hk : 0 < k) (hn : 0 < n) (x : Nat → Nat → ℝ) {U : Nat → GUnit} (h : Mixture d k U) :
    ∀ t, (∀ s, s < t → ∀ j, j < k → (toMatrix d (turns 0 d k n x U (s + 1) j).cov).det ≠ 0) →
      Mixture d k (turns 0 d k n x U t) ∧ likelihood d k n x U ≤ likelihood d k n x (turns 0 d k n x U t)
  | 0, _ => ⟨h, le_rfl⟩
  | t + 1, hd => by
    obtain ⟨h1, h2⟩ := turns_monotone d hk hn x h t fun s hs => hd s (by omega)
    have h3 := hd t (Nat.lt_succ_self _)
    rw [turns_succ] at h3 ⊢
    obtain ⟨h4, h5⟩ := emStep_monotone d hk hn x h1 h3
    exact ⟨h4, h2.trans h5⟩

/-- In one dimension a covariance is singular only when all points are the same. -/
theorem emStep_1d {k n : Nat} (hn : 0 < n) (x : Nat → Nat → ℝ) {U : Nat → GUnit} (h : Mixture 1 k U) (i1 i2 : Nat) (h1 : i1 < n) (h2 : i2 < n)
    (hne : x i1 0 ≠ x i2 0) (j : Nat) (hj : j < k) : (toMatrix 1 (emStep 0 1 k n x U j).cov).det ≠ 0 := by
  have hok := Regular.ok le_rfl h.2 h.1
  have hnk : 0 < nks 0 1 k n x U j := nks_pos le_rfl 1 hn x hok j hj (h.1.1 j hj)
  have e : emStep 0 1 k n x U j = maximizeUnit 0 1 n x (fun i => gamma 0 1 k U (x i) j) (nks 0 1 k n x U j) := if_pos hj
  have hc : (emStep 0 1 k n x U j).cov 0 0 = (∑ i ∈ range n, gamma 0 1 k U (x i) j * ((x i 0 - (emStep 0 1 k n x U j).core 0) * (x i 0 - (emStep 0 1 k n x U j).core 0))) /
      nks 0 1 k n x U j := by
    rw [e]; exact loadedCov_eq n x _ le_rfl hnk _ 0 0
  rw [Matrix.det_fin_one]
  show (emStep 0 1 k n x U j).cov 0 0 ≠ 0
  rw [hc]
  have hterm : ∀ i ∈ range n, 0 ≤ gamma 0 1 k U (x i) j * ((x i 0 - (emStep 0 1 k n x U j).core 0) * (x i 0 - (emStep 0 1 k n x U j).core 0)) := fun i _ =>
    mul_nonneg (gamma_nonneg le_rfl 1 hok (x i) j hj) (mul_self_nonneg _)
  obtain ⟨i, hi, hxi⟩ : ∃ i, i < n ∧ x i 0 ≠ (emStep 0 1 k n x U j).core 0 := by
    by_cases hh : x i1 0 = (emStep 0 1 k n x U j).core 0
    · exact ⟨i2, h2, fun hh' => hne (hh.trans hh'.symm)⟩
    · exact ⟨i1, h1, hh⟩
  have hpos : 0 < gamma 0 1 k U (x i) j * ((x i 0 - (emStep 0 1 k n x U j).core 0) * (x i 0 - (emStep 0 1 k n x U j).core 0)) :=
    mul_pos (gamma_pos le_rfl 1 hok (x i) j hj (h.1.1 j hj)) (mul_self_pos.mpr (sub_ne_zero.mpr hxi))
  exact (div_pos (lt_of_lt_of_le hpos (Finset.single_le_sum hterm (mem_range.mpr hi))) hnk).ne'

/-- **In one dimension, with two different points, the likelihood never decreases**, over any number of turns, from any mixture. -/
theorem em_1d {k n : Nat} (hk : 0 < k) (hn : 0 < n) (x : Nat → Nat → ℝ) {U : Nat → GUnit} (h : Mixture 1 k U) (i1 i2 : Nat) (h1 : i1 < n) (h2 : i2 < n)
    (hne : x i1 0 ≠ x i2 0) : ∀ t, Mixture 1 k (turns 0 1 k n x U t) ∧ likelihood 1 k n x (turns 0 1 k n x U t) ≤ likelihood 1 k n x (turns 0 1 k n x U (t + 1))
  | 0 => by
    refine ⟨h, ?_⟩
    rw [turns_succ]
    exact (emStep_monotone 1 hk hn x h (emStep_1d hn x h i1 i2 h1 h2 hne)).2
  | t + 1 => by
    obtain ⟨h3, _⟩ := em_1d hk hn x h i1 i2 h1 h2 hne t
    have h5 := emStep_monotone 1 hk hn x h3 (emStep_1d hn x h3 i1 i2 h1 h2 hne)
    rw [turns_succ 0 1 k n x U (t + 1), turns_succ 0 1 k n x U t]
    exact ⟨h5.1, (emStep_monotone 1 hk hn x h5.1 (emStep_1d hn x h5.1 i1 i2 h1 h2 hne)).2⟩

end Zm.GMM
