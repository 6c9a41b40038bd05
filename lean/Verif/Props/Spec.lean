import Mathlib.Analysis.Matrix.Spectrum
import Mathlib.Analysis.SpecificLimits.Basic

/-! # Diagonalisation of real symmetric matrices, in a form convenient for the iterations of C115 and C117 -/

set_option linter.unusedSectionVars false

namespace Zm.Spec
open Finset Matrix

/-- A real symmetric matrix in its eigenbasis. -/
structure Diag {n : Nat} (A U : Matrix (Fin n) (Fin n) ℝ) (l : Fin n → ℝ) : Prop where
  orth : U.transpose * U = 1
  orth' : U * U.transpose = 1
  eq : A = U * diagonal l * U.transpose

theorem exists_diag {n : Nat} (A : Matrix (Fin n) (Fin n) ℝ) (h : A.transpose = A) : ∃ U l, Diag A U l := by
  have hA : A.IsHermitian := by
    rw [Matrix.IsHermitian, Matrix.conjTranspose_eq_transpose_of_trivial]; exact h
  have hs := hA.spectral_theorem
  rw [Unitary.conjStarAlgAut_apply] at hs
  have hU := hA.eigenvectorUnitary.2
  rw [Matrix.mem_unitaryGroup_iff] at hU
  have ht : star (hA.eigenvectorUnitary : Matrix (Fin n) (Fin n) ℝ) = (hA.eigenvectorUnitary : Matrix (Fin n) (Fin n) ℝ).transpose := by
    ext i j
    simp [Matrix.star_apply]
  rw [ht] at hU hs
  refine ⟨_, hA.eigenvalues, mul_eq_one_comm.1 hU, hU, ?_⟩
  exact hs

theorem Diag.pow {n : Nat} {A U : Matrix (Fin n) (Fin n) ℝ} {l : Fin n → ℝ} (h : Diag A U l) (k : Nat) : A ^ k = U * diagonal (fun i => l i ^ k) * U.transpose := by
  induction k with
  | zero => simp [h.orth']
  | succ k ih =>
    rw [pow_succ, ih]
    conv_lhs => rw [h.eq]
    rw [Matrix.mul_assoc (U * diagonal fun i => l i ^ k), ← Matrix.mul_assoc U.transpose, ← Matrix.mul_assoc U.transpose, h.orth, Matrix.one_mul, ← Matrix.mul_assoc, Matrix.mul_assoc U, diagonal_mul_diagonal]
    simp only [pow_succ]

theorem Diag.entry {n : Nat} {A U : Matrix (Fin n) (Fin n) ℝ} {l : Fin n → ℝ} (h : Diag A U l) (k : Nat) (i j : Fin n) : (A ^ k) i j = ∑ t, U i t * l t ^ k * U j t := by
  rw [h.pow k, Matrix.mul_apply]
  refine sum_congr rfl fun t _ => ?_
  rw [Matrix.mul_diagonal]
  rfl

/-- The eigenvalue is the value of the quadratic form at the eigenvector. -/
theorem Diag.value {n : Nat} {A U : Matrix (Fin n) (Fin n) ℝ} {l : Fin n → ℝ} (h : Diag A U l) (t : Fin n) : l t = ∑ i, ∑ j, U i t * A i j * U j t := by
  have e : U.transpose * A * U = diagonal l := by
    rw [h.eq, ← Matrix.mul_assoc, ← Matrix.mul_assoc, h.orth, Matrix.one_mul, Matrix.mul_assoc, h.orth, Matrix.mul_one]
  have := congrFun (congrFun e t) t
  rw [diagonal_apply_eq, Matrix.mul_apply] at this
  rw [← this, sum_comm]
  refine sum_congr rfl fun j _ => ?_
  rw [Matrix.mul_apply, sum_mul]
  rfl

theorem Diag.unit {n : Nat} {A U : Matrix (Fin n) (Fin n) ℝ} {l : Fin n → ℝ} (h : Diag A U l) (t : Fin n) : ∑ i, U i t * U i t = 1 := by
  have := congrFun (congrFun h.orth t) t
  rw [Matrix.one_apply_eq, Matrix.mul_apply] at this
  exact this

/-- Powers of a symmetric matrix whose eigenvalues lie between zero and one vanish. -/
theorem Diag.small {n : Nat} {A U : Matrix (Fin n) (Fin n) ℝ} {l : Fin n → ℝ} (h : Diag A U l) (h0 : ∀ t, 0 ≤ l t ∧ l t < 1) (tol : ℝ) (ht : 0 < tol) :
    ∃ N, ∀ k, N ≤ k → ∀ i j, |(A ^ k) i j| ≤ tol := by
  have hl : ∀ i j, Filter.Tendsto (fun k : Nat => (A ^ k) i j) Filter.atTop (nhds 0) := by
    intro i j
    simp only [h.entry]
    have := tendsto_finsetSum (f := fun t (k : Nat) => U i t * l t ^ k * U j t) (a := fun _ => (0 : ℝ)) (x := Filter.atTop) univ (fun t _ => by
      have h1 := tendsto_pow_atTop_nhds_zero_of_lt_one (h0 t).1 (h0 t).2
      have h2 := (h1.const_mul (U i t)).mul_const (U j t)
      rwa [mul_zero, zero_mul] at h2)
    rwa [sum_const_zero] at this
  have h2 : ∀ i j, ∃ N, ∀ k, N ≤ k → |(A ^ k) i j| ≤ tol := by
    intro i j
    obtain ⟨N, hN⟩ := (Metric.tendsto_atTop.1 (hl i j)) tol ht
    exact ⟨N, fun k hk => by have := hN k hk; rw [Real.dist_eq, sub_zero] at this; exact this.le⟩
  choose N hN using h2
  refine ⟨∑ i, ∑ j, N i j, fun k hk i j => hN i j k (le_trans ?_ hk)⟩
  exact (single_le_sum (f := fun j => N i j) (fun _ _ => Nat.zero_le _) (mem_univ j)).trans
    (single_le_sum (f := fun i => ∑ j, N i j) (fun _ _ => Nat.zero_le _) (mem_univ i))

end Zm.Spec
