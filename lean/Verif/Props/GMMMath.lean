import Mathlib.Analysis.Matrix.PosDef
import Mathlib.Analysis.Matrix.Order
import Mathlib.Analysis.Convex.SpecificFunctions.Basic
import Mathlib.Analysis.SpecialFunctions.Log.Deriv
import Mathlib.Analysis.SpecialFunctions.Trigonometric.Basic

/-! # What is needed on Gaussian densities: the mean and the covariance of weighted points maximise the weighted likelihood -/

namespace Zm.GMM
open Matrix Finset
open scoped MatrixOrder
variable {d : Nat}

/-- log x ≤ x - 1 summed over eigenvalues: d + log det M ≤ tr M for M positive definite. -/
theorem trace_log_det (M : Matrix (Fin d) (Fin d) ℝ) (h : M.PosDef) : d + Real.log M.det ≤ M.trace := by
  have h1 := h.1.det_eq_prod_eigenvalues
  have h2 := h.1.trace_eq_sum_eigenvalues
  have hp := h.eigenvalues_pos
  simp only [RCLike.ofReal_real_eq_id, id] at h1 h2
  rw [h1, h2, Real.log_prod (fun i _ => (hp i).ne')]
  have : ∑ i : Fin d, (1 + Real.log (h.1.eigenvalues i)) ≤ ∑ i, h.1.eigenvalues i :=
    Finset.sum_le_sum fun i _ => by linarith [Real.log_le_sub_one_of_pos (hp i)]
  rw [Finset.sum_add_distrib] at this
  simpa using this

/-- d + log det P + log det S ≤ tr (P S) for P and S positive definite. -/
theorem trace_mul_log_det (P S : Matrix (Fin d) (Fin d) ℝ) (hP : P.PosDef) (hS : S.PosDef) :
    d + (Real.log P.det + Real.log S.det) ≤ (P * S).trace := by
  obtain ⟨B, hB, rfl⟩ : ∃ B : Matrix (Fin d) (Fin d) ℝ, IsUnit B ∧ P = Bᴴ * B := by
    obtain ⟨B, hB⟩ := CStarAlgebra.nonneg_iff_eq_star_mul_self.mp hP.posSemidef.nonneg
    refine ⟨B, ?_, hB⟩
    rw [Matrix.isUnit_iff_isUnit_det]
    have : IsUnit P.det := (Matrix.isUnit_iff_isUnit_det P).mp hP.isUnit
    rw [hB, Matrix.det_mul] at this
    exact isUnit_of_mul_isUnit_right this
  have hM : (B * S * Bᴴ).PosDef := by
    refine hS.mul_mul_conjTranspose_same ?_
    exact Matrix.vecMul_injective_of_isUnit hB
  have h := trace_log_det _ hM
  have ht : (B * S * Bᴴ).trace = (Bᴴ * B * S).trace := by
    rw [Matrix.trace_mul_comm, ← Matrix.mul_assoc]
  have hd : (B * S * Bᴴ).det = (Bᴴ * B).det * S.det := by
    rw [Matrix.det_mul, Matrix.det_mul, Matrix.det_mul]; ring
  rw [ht, hd, Real.log_mul hP.det_pos.ne' hS.det_pos.ne'] at h
  exact h

/-- The quadratic form as a double sum. -/
def qf (P : Matrix (Fin d) (Fin d) ℝ) (v : Fin d → ℝ) : ℝ := ∑ a, ∑ b, v a * P a b * v b

theorem qf_eq (P : Matrix (Fin d) (Fin d) ℝ) (v : Fin d → ℝ) : qf P v = v ⬝ᵥ (P *ᵥ v) := by
  unfold qf dotProduct Matrix.mulVec dotProduct
  refine Finset.sum_congr rfl fun a _ => ?_
  rw [Finset.mul_sum]
  exact Finset.sum_congr rfl fun b _ => by ring

theorem qf_nonneg (P : Matrix (Fin d) (Fin d) ℝ) (h : P.PosSemidef) (v : Fin d → ℝ) : 0 ≤ qf P v := by
  rw [qf_eq]
  have := h.dotProduct_mulVec_nonneg v
  simpa using this

/-- The sum of weighted quadratic forms, in terms of the weighted mean and covariance. -/
theorem sum_qf {n : Nat} (g : Nat → ℝ) (x : Nat → Fin d → ℝ) (N : ℝ) (hN : N = ∑ i ∈ range n, g i) (m : Fin d → ℝ)
    (hm : ∀ a, N * m a = ∑ i ∈ range n, g i * x i a) (S : Matrix (Fin d) (Fin d) ℝ)
    (hS : ∀ a b, N * S a b = ∑ i ∈ range n, g i * ((x i a - m a) * (x i b - m b))) (P : Matrix (Fin d) (Fin d) ℝ) (hP : P.IsHermitian) (μ : Fin d → ℝ) :
    ∑ i ∈ range n, g i * qf P (fun a => x i a - μ a) = N * (P * S).trace + N * qf P (fun a => m a - μ a) := by
  have key : ∀ a b, ∑ i ∈ range n, g i * ((x i a - μ a) * (x i b - μ b)) = N * S a b + N * ((m a - μ a) * (m b - μ b)) := by
    intro a b
    rw [hS a b]
    have e1 : ∀ i, g i * ((x i a - μ a) * (x i b - μ b)) =
        g i * ((x i a - m a) * (x i b - m b)) + (m b - μ b) * (g i * x i a) - (m b - μ b) * m a * g i + (m a - μ a) * (g i * x i b) - (m a - μ a) * m b * g i
          + (m a - μ a) * (m b - μ b) * g i := by intro i; ring
    rw [Finset.sum_congr rfl fun i _ => e1 i]
    simp only [Finset.sum_add_distrib, Finset.sum_sub_distrib, ← Finset.mul_sum]
    rw [← hm a, ← hm b, ← hN]
    ring
  have hsym : ∀ a b, P a b = P b a := fun a b => by
    have := congrFun (congrFun hP b) a
    simpa [Matrix.conjTranspose_apply] using this
  calc ∑ i ∈ range n, g i * qf P (fun a => x i a - μ a)
      = ∑ a, ∑ b, P a b * ∑ i ∈ range n, g i * ((x i a - μ a) * (x i b - μ b)) := by
        unfold qf
        simp only [Finset.mul_sum]
        rw [Finset.sum_comm]
        refine Finset.sum_congr rfl fun a _ => ?_
        rw [Finset.sum_comm]
        refine Finset.sum_congr rfl fun b _ => Finset.sum_congr rfl fun i _ => by ring
    _ = ∑ a, ∑ b, P a b * (N * S a b + N * ((m a - μ a) * (m b - μ b))) := by simp only [key]
    _ = N * (P * S).trace + N * qf P (fun a => m a - μ a) := by
        unfold qf
        simp only [Matrix.trace, Matrix.diag, Matrix.mul_apply, Finset.mul_sum, ← Finset.sum_add_distrib]
        have hSs : ∀ a b, N * S a b = N * S b a := fun a b => by
          rw [hS, hS]; exact Finset.sum_congr rfl fun i _ => by ring
        refine Finset.sum_congr rfl fun a _ => Finset.sum_congr rfl fun b _ => ?_
        linear_combination P a b * hSs a b

/-- The logarithm of the density, without the factor of 2π. -/
noncomputable def logG (P : Matrix (Fin d) (Fin d) ℝ) (μ v : Fin d → ℝ) : ℝ := (1/2) * Real.log P.det - (1/2) * qf P (fun a => v a - μ a)

/-- **The weighted mean and covariance maximise the weighted likelihood of a Gaussian.** -/
theorem gauss_mle {n : Nat} (g : Nat → ℝ) (x : Nat → Fin d → ℝ) (N : ℝ) (hN : N = ∑ i ∈ range n, g i) (hN0 : 0 ≤ N) (m : Fin d → ℝ)
    (hm : ∀ a, N * m a = ∑ i ∈ range n, g i * x i a) (S : Matrix (Fin d) (Fin d) ℝ)
    (hS : ∀ a b, N * S a b = ∑ i ∈ range n, g i * ((x i a - m a) * (x i b - m b))) (hSp : S.PosDef)
    (P : Matrix (Fin d) (Fin d) ℝ) (hP : P.PosDef) (μ : Fin d → ℝ) :
    ∑ i ∈ range n, g i * logG P μ (x i) ≤ ∑ i ∈ range n, g i * logG S⁻¹ m (x i) := by
  have hi : S⁻¹.PosDef := hSp.inv
  have e1 := sum_qf g x N hN m hm S hS P hP.1 μ
  have e2 := sum_qf g x N hN m hm S hS S⁻¹ hi.1 m
  have e : ∀ (Q : Matrix (Fin d) (Fin d) ℝ) (ν : Fin d → ℝ), ∑ i ∈ range n, g i * logG Q ν (x i) =
      (1/2) * (N * Real.log Q.det) - (1/2) * ∑ i ∈ range n, g i * qf Q (fun a => x i a - ν a) := by
    intro Q ν
    unfold logG
    rw [hN, Finset.sum_mul, Finset.mul_sum, Finset.mul_sum, ← Finset.sum_sub_distrib]
    exact Finset.sum_congr rfl fun i _ => by ring
  rw [e, e, e1, e2]
  have hz : qf S⁻¹ (fun a => m a - m a) = 0 := by simp [qf]
  have hu : IsUnit S.det := hSp.det_pos.ne'.isUnit
  have htr : (S⁻¹ * S).trace = d := by rw [Matrix.nonsing_inv_mul _ hu]; simp
  have hld : Real.log S⁻¹.det = - Real.log S.det := by
    rw [Matrix.det_nonsing_inv, Ring.inverse_eq_inv', Real.log_inv]
  rw [hz, htr, hld]
  have h1 := trace_mul_log_det P S hP hSp
  have h2 := mul_nonneg hN0 (qf_nonneg P hP.posSemidef fun a => m a - μ a)
  have h3 := mul_le_mul_of_nonneg_left h1 hN0
  nlinarith

/-- Jensen's inequality for the logarithm, in the form used by the method: the mean of log b / a over the parts of a is at most the logarithm of the quotient of the sums. -/
theorem log_sum_ge {k : Nat} (hk : 0 < k) (a b : Nat → ℝ) (ha : ∀ j, j < k → 0 < a j) (hb : ∀ j, j < k → 0 < b j) :
    ∑ j ∈ range k, a j / (∑ l ∈ range k, a l) * (Real.log (b j) - Real.log (a j)) ≤ Real.log (∑ j ∈ range k, b j) - Real.log (∑ j ∈ range k, a j) := by
  have hA : 0 < ∑ l ∈ range k, a l := Finset.sum_pos (fun j hj => ha j (Finset.mem_range.mp hj)) (Finset.nonempty_range_iff.mpr hk.ne')
  have hB : 0 < ∑ l ∈ range k, b l := Finset.sum_pos (fun j hj => hb j (Finset.mem_range.mp hj)) (Finset.nonempty_range_iff.mpr hk.ne')
  have hj := (strictConcaveOn_log_Ioi.concaveOn).le_map_sum (t := range k) (w := fun j => a j / ∑ l ∈ range k, a l) (p := fun j => b j / a j)
    (fun j hj => (div_pos (ha j (Finset.mem_range.mp hj)) hA).le) (by rw [← Finset.sum_div]; exact div_self hA.ne')
    (fun j hj => div_pos (hb j (Finset.mem_range.mp hj)) (ha j (Finset.mem_range.mp hj)))
  have e1 : ∑ j ∈ range k, a j / (∑ l ∈ range k, a l) * (Real.log (b j) - Real.log (a j)) =
      ∑ j ∈ range k, (a j / ∑ l ∈ range k, a l) • Real.log (b j / a j) := by
    refine Finset.sum_congr rfl fun j hj => ?_
    rw [Real.log_div (hb j (Finset.mem_range.mp hj)).ne' (ha j (Finset.mem_range.mp hj)).ne', smul_eq_mul]
  have e2 : ∑ j ∈ range k, (a j / ∑ l ∈ range k, a l) • (b j / a j) = (∑ j ∈ range k, b j) / ∑ l ∈ range k, a l := by
    rw [Finset.sum_div]
    refine Finset.sum_congr rfl fun j hj => ?_
    rw [smul_eq_mul]
    field_simp [(ha j (Finset.mem_range.mp hj)).ne']
  rw [e1, ← Real.log_div hB.ne' hA.ne', ← e2]
  exact hj

/-- Gibbs' inequality: the weights that maximise Σ nk log w are nk / Σ nk. -/
theorem gibbs {k : Nat} (nk w : Nat → ℝ) (N : ℝ) (hN : N = ∑ j ∈ range k, nk j) (hN0 : 0 < N) (hnk : ∀ j, j < k → 0 < nk j) (hw : ∀ j, j < k → 0 < w j)
    (hw1 : ∑ j ∈ range k, w j ≤ 1) : ∑ j ∈ range k, nk j * Real.log (w j) ≤ ∑ j ∈ range k, nk j * Real.log (nk j / N) := by
  have : ∀ j ∈ range k, nk j * Real.log (w j) - nk j * Real.log (nk j / N) ≤ N * w j - nk j := by
    intro j hj
    have h1 := hnk j (Finset.mem_range.mp hj)
    have h2 := hw j (Finset.mem_range.mp hj)
    have h3 := Real.log_le_sub_one_of_pos (show 0 < w j / (nk j / N) by positivity)
    rw [Real.log_div h2.ne' (by positivity)] at h3
    have h4 := mul_le_mul_of_nonneg_left h3 h1.le
    have h5 : nk j * (w j / (nk j / N) - 1) = N * w j - nk j := by field_simp
    rw [h5] at h4
    linarith
  have h := Finset.sum_le_sum this
  rw [Finset.sum_sub_distrib, Finset.sum_sub_distrib, ← Finset.mul_sum, ← hN] at h
  have : N * ∑ j ∈ range k, w j ≤ N * 1 := mul_le_mul_of_nonneg_left hw1 hN0.le
  linarith

end Zm.GMM
