import Verif.Model.ClusterMore
import Verif.Props.RANSAC
import Mathlib.Analysis.SpecialFunctions.Sqrt
import Mathlib.Analysis.Real.Pi.Bounds
import Mathlib.Tactic.Linarith
import Mathlib.Tactic.Ring
import Mathlib.Tactic.FieldSimp
import Mathlib.Tactic.LinearCombination
import Mathlib.Algebra.BigOperators.Group.List.Basic

/-! # Tests of clusters, automatic parameters of RANSAC: properties -/

set_option linter.unusedSectionVars false

namespace Zm.Cluster

variable {P : Type*}

/-! ## Evenness -/

theorem fold_min (l : List Nat) (m : Nat) : (l.foldl (fun m s => if s < m then s else m) m ≤ m) ∧
    (∀ s ∈ l, l.foldl (fun m s => if s < m then s else m) m ≤ s) ∧
    (l.foldl (fun m s => if s < m then s else m) m = m ∨ l.foldl (fun m s => if s < m then s else m) m ∈ l) := by
  induction l generalizing m with
  | nil => exact ⟨le_rfl, by simp, Or.inl rfl⟩
  | cons a l ih =>
    rw [List.foldl_cons]
    obtain ⟨h1, h2, h3⟩ := ih (if a < m then a else m)
    by_cases h : a < m
    · rw [if_pos h] at h1 h2 h3 ⊢
      refine ⟨by omega, ?_, ?_⟩
      · intro s hs
        rcases List.mem_cons.1 hs with rfl | hs
        · exact h1
        · exact h2 s hs
      · rcases h3 with h3 | h3
        · right; rw [h3]; exact List.mem_cons_self
        · right; exact List.mem_cons_of_mem _ h3
    · rw [if_neg h] at h1 h2 h3 ⊢
      refine ⟨h1, ?_, ?_⟩
      · intro s hs
        rcases List.mem_cons.1 hs with rfl | hs
        · omega
        · exact h2 s hs
      · rcases h3 with h3 | h3
        · exact Or.inl h3
        · right; exact List.mem_cons_of_mem _ h3

theorem fold_max (l : List Nat) (m : Nat) : (m ≤ l.foldl (fun m s => if s > m then s else m) m) ∧
    (∀ s ∈ l, s ≤ l.foldl (fun m s => if s > m then s else m) m) ∧
    (l.foldl (fun m s => if s > m then s else m) m = m ∨ l.foldl (fun m s => if s > m then s else m) m ∈ l) := by
  induction l generalizing m with
  | nil => exact ⟨le_rfl, by simp, Or.inl rfl⟩
  | cons a l ih =>
    rw [List.foldl_cons]
    obtain ⟨h1, h2, h3⟩ := ih (if a > m then a else m)
    by_cases h : a > m
    · rw [if_pos h] at h1 h2 h3 ⊢
      refine ⟨by omega, ?_, ?_⟩
      · intro s hs
        rcases List.mem_cons.1 hs with rfl | hs
        · exact h1
        · exact h2 s hs
      · rcases h3 with h3 | h3
        · right; rw [h3]; exact List.mem_cons_self
        · right; exact List.mem_cons_of_mem _ h3
    · rw [if_neg h] at h1 h2 h3 ⊢
      refine ⟨h1, ?_, ?_⟩
      · intro s hs
        rcases List.mem_cons.1 hs with rfl | hs
        · omega
        · exact h2 s hs
      · rcases h3 with h3 | h3
        · exact Or.inl h3
        · right; exact List.mem_cons_of_mem _ h3

/-- **C204.** The evenness of clusters that have samples is the ratio of the sizes of a greatest and a least cluster; it is at least one. -/
theorem evenness_ratio {K : Type*} [Field K] [LinearOrder K] [IsStrictOrderedRing K] (intMax : Nat) (sizes : List Nat) (hne : sizes ≠ [])
    (hpos : ∀ s ∈ sizes, 0 < s) (hmax : ∀ s ∈ sizes, s < intMax) :
    ∃ mx ∈ sizes, ∃ mn ∈ sizes, (∀ s ∈ sizes, mn ≤ s ∧ s ≤ mx) ∧ evenness intMax sizes = .fin ((mx : K) / (mn : K)) ∧ (1:K) ≤ (mx : K) / (mn : K) := by
  obtain ⟨-, a2, a3⟩ := fold_min sizes intMax
  obtain ⟨-, b2, b3⟩ := fold_max sizes 0
  obtain ⟨s0, hs0⟩ := List.exists_mem_of_ne_nil sizes hne
  set mn := sizes.foldl (fun m s => if s < m then s else m) intMax with hmn
  set mx := sizes.foldl (fun m s => if s > m then s else m) 0 with hmx
  have m1 : mn ∈ sizes := by
    rcases a3 with h | h
    · have := a2 s0 hs0; have := hmax s0 hs0; omega
    · exact h
  have m2 : mx ∈ sizes := by
    rcases b3 with h | h
    · have := b2 s0 hs0; have := hpos s0 hs0; omega
    · exact h
  have hp := hpos mn m1
  refine ⟨mx, m2, mn, m1, fun s hs => ⟨a2 s hs, b2 s hs⟩, ?_, ?_⟩
  · unfold evenness
    simp only [← hmn, ← hmx]
    rw [if_neg (by omega)]
  · rw [le_div_iff₀ (by exact_mod_cast hp), one_mul]
    exact_mod_cast a2 mx m2

/-- A concrete case. -/
example : evenness (K := ℚ) 2147483647 [4, 2, 6] = .fin 3 := by
  unfold evenness
  norm_num

/-- **C204, violated.** A cluster without samples makes it infinite, or not a number if all are empty: the quotient is not guarded. -/
theorem evenness_empty_violated {K : Type*} [Field K] (intMax : Nat) (sizes : List Nat) (h : 0 ∈ sizes) (x : K) : evenness intMax sizes ≠ .fin x := by
  unfold evenness
  have : sizes.foldl (fun m s => if s < m then s else m) intMax = 0 := Nat.le_zero.1 ((fold_min sizes intMax).2.1 0 h)
  simp only [this]
  rw [if_pos trivial]
  split_ifs <;> exact fun h => by cases h

/-! ## The Bayesian information criterion -/

/-- Specification: the density of the normal distribution of one variable, of the variance `v`, at the squared distance `e2` from the mean. -/
noncomputable def gauss (v e2 : ℝ) : ℝ := Real.exp (-e2 / (2 * v)) / √(2 * Real.pi * v)

/-- Specification: the criterion, from the logarithm of the likelihood, the number of parameters and the number of samples. -/
noncomputable def bic (logL : ℝ) (k n : Nat) : ℝ := k * Real.log n - 2 * logL

/-- Specification: logarithm of the likelihood of samples with one normal distribution. -/
noncomputable def logL1 (v : ℝ) (e : P → ℝ) (l : List P) : ℝ := (l.map fun p => Real.log (gauss v (e p))).sum

/-- Specification: logarithm of the likelihood of samples with two normal distributions of the same weight. -/
noncomputable def logL2 (v1 v2 : ℝ) (e1 e2 : P → ℝ) (l : List P) : ℝ :=
  (l.map fun p => Real.log (1/2 * gauss v1 (e1 p) + 1/2 * gauss v2 (e2 p))).sum

theorem bic_fold (v1 v2 : ℝ) (h1 : v1 ≠ 0) (h2 : v2 ≠ 0) (e1 e2 : P → ℝ) (l : List P) (s : ℝ) :
    l.foldl (bicTerm v1 v2 e1 e2) (some s) =
      some (s + (l.map fun p => Real.log (Real.exp (-0.5 * e1 p / v1) / √v1 + Real.exp (-0.5 * e2 p / v2) / √v2)).sum) := by
  induction l generalizing s with
  | nil => simp
  | cons p l ih =>
    have e : bicTerm v1 v2 e1 e2 (some s) p = some (s + Real.log (Real.exp (-0.5 * e1 p / v1) / √v1 + Real.exp (-0.5 * e2 p / v2) / √v2)) := by
      unfold bicTerm xPDF
      rw [if_neg h1, if_neg h2]
    rw [List.foldl_cons, e, ih, List.map_cons, List.sum_cons, add_assoc]

theorem gauss_eq (v e2 : ℝ) (hv : 0 < v) : gauss v e2 = Real.exp (-0.5 * e2 / v) / √v / √(2 * Real.pi) := by
  unfold gauss
  rw [Real.sqrt_mul (by positivity), div_div, mul_comm (√v)]
  congr 2
  field_simp
  norm_num
  ring

theorem logL2_eq (v1 v2 : ℝ) (h1 : 0 < v1) (h2 : 0 < v2) (e1 e2 : P → ℝ) (l : List P) :
    logL2 v1 v2 e1 e2 l = (l.map fun p => Real.log (Real.exp (-0.5 * e1 p / v1) / √v1 + Real.exp (-0.5 * e2 p / v2) / √v2)).sum
      - l.length * (Real.log 2 + 1/2 * Real.log (2 * Real.pi)) := by
  unfold logL2
  induction l with
  | nil => simp
  | cons p l ih =>
    rw [List.map_cons, List.sum_cons, ih, List.map_cons, List.sum_cons, List.length_cons]
    have s1 : 0 < √v1 := Real.sqrt_pos.2 h1
    have s2 : 0 < √v2 := Real.sqrt_pos.2 h2
    have s3 : (0:ℝ) < 2 * Real.pi := by positivity
    have s4 : 0 < √(2 * Real.pi) := Real.sqrt_pos.2 s3
    have a1 : 0 < Real.exp (-0.5 * e1 p / v1) / √v1 := by positivity
    have a2 : 0 < Real.exp (-0.5 * e2 p / v2) / √v2 := by positivity
    have e : 1/2 * gauss v1 (e1 p) + 1/2 * gauss v2 (e2 p) =
        (Real.exp (-0.5 * e1 p / v1) / √v1 + Real.exp (-0.5 * e2 p / v2) / √v2) / (2 * √(2 * Real.pi)) := by
      rw [gauss_eq _ _ h1, gauss_eq _ _ h2]
      field_simp
    rw [e, Real.log_div (by positivity) (by positivity), Real.log_mul (by norm_num) s4.ne', Real.log_sqrt s3.le]
    push_cast
    ring

theorem logL1_eq (v : ℝ) (hv : 0 < v) (e : P → ℝ) (l : List P) :
    logL1 v e l = -(1/2) * ((l.map e).sum / v) - l.length * (1/2 * Real.log v + 1/2 * Real.log (2 * Real.pi)) := by
  unfold logL1
  induction l with
  | nil => simp
  | cons p l ih =>
    rw [List.map_cons, List.sum_cons, ih, List.map_cons, List.sum_cons, List.length_cons]
    have s1 : 0 < √v := Real.sqrt_pos.2 hv
    have s3 : (0:ℝ) < 2 * Real.pi := by positivity
    have s4 : 0 < √(2 * Real.pi) := Real.sqrt_pos.2 s3
    rw [gauss_eq _ _ hv, Real.log_div (by positivity) s4.ne', Real.log_div (Real.exp_pos _).ne' s1.ne', Real.log_exp, Real.log_sqrt hv.le,
      Real.log_sqrt s3.le]
    push_cast
    ring

theorem clusterVar_eq (e : P → ℝ) (l : List P) (v : ℝ) (h : clusterVar e l = some v) : (l.map e).sum = l.length * v ∧ 0 < l.length := by
  unfold clusterVar at h
  by_cases h0 : l.length = 0
  · rw [if_pos h0] at h; exact absurd h (by simp)
  · rw [if_neg h0] at h
    injection h with h
    have key : ∀ (l : List P) (s : ℝ), l.foldl (fun s p => s + e p) s = s + (l.map e).sum := by
      intro l
      induction l with
      | nil => intro s; simp
      | cons p l ih => intro s; rw [List.foldl_cons, ih, List.map_cons, List.sum_cons, add_assoc]
    rw [key, zero_add] at h
    have hl : (l.length : ℝ) ≠ 0 := by exact_mod_cast h0
    exact ⟨by rw [← h]; field_simp, by omega⟩

/-- **C205.** With errors of one dimension and positive variances the test by the Bayesian information criterion keeps the samples together exactly if the
criterion of one normal distribution is less than that of two of the same weight, with the variances as computed from the samples. -/
theorem checkBIC_partial (coreSize : Nat) (e e1 e2 : P → ℝ) (c c1 c2 : List P) (hp : (c1 ++ c2).Perm c) (v v1 v2 : ℝ) (hv : clusterVar e c = some v)
    (h0 : 0 < v) (h1 : 0 < v1) (h2 : 0 < v2) :
    checkBIC coreSize v v1 v2 e1 e2 c c1 c2 = true ↔
      bic (logL1 v e c) coreSize c.length < bic (logL2 v1 v2 e1 e2 c) (2 * coreSize) c.length := by
  obtain ⟨hs, hl⟩ := clusterVar_eq e c v hv
  unfold checkBIC
  simp only
  rw [bic_fold v1 v2 h1.ne' h2.ne', bic_fold v1 v2 h1.ne' h2.ne', zero_add, ← List.sum_append, ← List.map_append]
  rw [(hp.map _).sum_eq]
  unfold bicCompare bic
  dsimp only
  rw [if_neg h0.ne', decide_eq_true_eq, logL2_eq v1 v2 h1 h2, logL1_eq v h0, hs]
  have : (c.length : ℝ) * v / v = c.length := by field_simp
  rw [this]
  push_cast
  constructor <;> intro h <;> linarith

theorem bicTerm_none (v1 v2 : ℝ) (e1 e2 : P → ℝ) (l : List P) : l.foldl (bicTerm v1 v2 e1 e2) none = none := by
  induction l with
  | nil => rfl
  | cons p l ih => rw [List.foldl_cons]; exact ih

/-- **C205, violated.** If one of the two parts has a variance of zero, for instance because it has one sample only, the densities are not numbers and the samples are
divided, whatever the likelihoods. -/
theorem checkBIC_zero_violated (coreSize : Nat) (e1 e2 : P → ℝ) (c c1 c2 : List P) (hp : (c1 ++ c2).Perm c) (hc : c ≠ []) (v v1 v2 : ℝ)
    (h : v1 = 0 ∨ v2 = 0) : checkBIC coreSize v v1 v2 e1 e2 c c1 c2 = false := by
  have st : ∀ (s : Option ℝ) (p : P), bicTerm v1 v2 e1 e2 s p = none := by
    intro s p
    unfold bicTerm xPDF
    rcases h with h | h
    · rw [if_pos h]; cases s <;> rfl
    · rw [if_pos h]
      cases s with
      | none => rfl
      | some s => by_cases h1 : v1 = 0
                  · rw [if_pos h1]
                  · rw [if_neg h1]
  unfold checkBIC
  simp only
  rw [← List.foldl_append]
  have : c1 ++ c2 ≠ [] := by
    intro h0
    rw [h0] at hp
    exact hc hp.symm.eq_nil
  cases hl : c1 ++ c2 with
  | nil => exact absurd hl this
  | cons p l => rw [List.foldl_cons, st, bicTerm_none]; rfl

/-! ### Errors of more than one dimension -/

/-- Specification: the density of the normal distribution of `d` variables with the covariance `s2` times the identity, at the squared distance `e2` from the mean. -/
noncomputable def gaussD (d : Nat) (s2 e2 : ℝ) : ℝ := Real.exp (-e2 / (2 * s2)) / √(2 * Real.pi * s2) ^ d

/-- Specification: as `logL1`, in `d` dimensions; `v` is the mean squared distance, so that the likeliest variance of a coordinate is `v / d`. -/
noncomputable def logL1D (d : Nat) (v : ℝ) (e : P → ℝ) (l : List P) : ℝ := (l.map fun p => Real.log (gaussD d (v / d) (e p))).sum

/-- Specification: as `logL2`, in `d` dimensions. -/
noncomputable def logL2D (d : Nat) (v1 v2 : ℝ) (e1 e2 : P → ℝ) (l : List P) : ℝ :=
  (l.map fun p => Real.log (1/2 * gaussD d (v1 / d) (e1 p) + 1/2 * gaussD d (v2 / d) (e2 p))).sum

/-- Squared distance in five dimensions. -/
def sq5 (p q : Fin 5 → ℝ) : ℝ := ∑ i, (p i - q i) ^ 2

/-- Four points of a plane in five dimensions. -/
def pts5 : List (Fin 5 → ℝ) := [![1, 1, 0, 0, 0], ![1, -1, 0, 0, 0], ![-1, 1, 0, 0, 0], ![-1, -1, 0, 0, 0]]

theorem log_gaussD (d : Nat) (s2 e2 : ℝ) (h : 0 < s2) : Real.log (gaussD d s2 e2) = -e2 / (2 * s2) - d * (1/2 * Real.log (2 * Real.pi) + 1/2 * Real.log s2) := by
  unfold gaussD
  have h2 : (0:ℝ) < 2 * Real.pi := by positivity
  have h1 : (0:ℝ) < 2 * Real.pi * s2 := by positivity
  rw [Real.log_div (Real.exp_pos _).ne' (pow_pos (Real.sqrt_pos.2 h1) _).ne', Real.log_exp, Real.log_pow, Real.log_sqrt h1.le, Real.log_mul h2.ne' h.ne']
  ring

/-- **C205, violated in more dimensions.** The densities of the test are those of one dimension.  For four points in five dimensions, with the means of all of them and of the two halves as cores, the
criterion of two normal distributions of five variables is less than that of one, but the test keeps the points together. -/
theorem checkBIC_dimension_violated :
    clusterVar (sq5 0) pts5 = some 2 ∧ clusterVar (sq5 ![1, 0, 0, 0, 0]) (pts5.take 2) = some 1 ∧ clusterVar (sq5 ![-1, 0, 0, 0, 0]) (pts5.drop 2) = some 1 ∧
    bic (logL2D 5 1 1 (sq5 ![1, 0, 0, 0, 0]) (sq5 ![-1, 0, 0, 0, 0]) pts5) (2 * 5) 4 < bic (logL1D 5 2 (sq5 0) pts5) 5 4 ∧
    checkBIC 5 2 1 1 (sq5 ![1, 0, 0, 0, 0]) (sq5 ![-1, 0, 0, 0, 0]) pts5 (pts5.take 2) (pts5.drop 2) = true := by
  have a0 : sq5 0 ![1, 1, 0, 0, 0] = 2 ∧ sq5 0 ![1, -1, 0, 0, 0] = 2 ∧ sq5 0 ![-1, 1, 0, 0, 0] = 2 ∧ sq5 0 ![-1, -1, 0, 0, 0] = 2 := by
    simp [sq5, Fin.sum_univ_succ]; norm_num
  have a1 : sq5 ![1, 0, 0, 0, 0] ![1, 1, 0, 0, 0] = 1 ∧ sq5 ![1, 0, 0, 0, 0] ![1, -1, 0, 0, 0] = 1 ∧ sq5 ![1, 0, 0, 0, 0] ![-1, 1, 0, 0, 0] = 5 ∧
      sq5 ![1, 0, 0, 0, 0] ![-1, -1, 0, 0, 0] = 5 := by
    simp [sq5, Fin.sum_univ_succ]; norm_num
  have a2 : sq5 ![-1, 0, 0, 0, 0] ![1, 1, 0, 0, 0] = 5 ∧ sq5 ![-1, 0, 0, 0, 0] ![1, -1, 0, 0, 0] = 5 ∧ sq5 ![-1, 0, 0, 0, 0] ![-1, 1, 0, 0, 0] = 1 ∧
      sq5 ![-1, 0, 0, 0, 0] ![-1, -1, 0, 0, 0] = 1 := by
    simp [sq5, Fin.sum_univ_succ]; norm_num
  have l2 : 0 < Real.log 2 := Real.log_pos (by norm_num)
  have l4 : Real.log 4 = 2 * Real.log 2 := by
    rw [show (4:ℝ) = 2 ^ 2 by norm_num, Real.log_pow]; norm_num
  refine ⟨?_, ?_, ?_, ?_, ?_⟩
  · simp only [clusterVar, pts5, List.length_cons, List.length_nil, List.foldl_cons, List.foldl_nil, a0]; norm_num
  · simp only [clusterVar, pts5, List.take, List.length_cons, List.length_nil, List.foldl_cons, List.foldl_nil, a1]; norm_num
  · simp only [clusterVar, pts5, List.drop, List.length_cons, List.length_nil, List.foldl_cons, List.foldl_nil, a2]; norm_num
  · have g1 : 0 < gaussD 5 (1 / (5:ℕ)) 1 := by unfold gaussD; positivity
    have g5 : 0 < gaussD 5 (1 / (5:ℕ)) 5 := by unfold gaussD; positivity
    have b1 : Real.log (1/2 * gaussD 5 (1 / (5:ℕ)) 1) ≤ Real.log (1/2 * gaussD 5 (1 / (5:ℕ)) 1 + 1/2 * gaussD 5 (1 / (5:ℕ)) 5) :=
      Real.log_le_log (by positivity) (by linarith)
    have b2 : Real.log (1/2 * gaussD 5 (1 / (5:ℕ)) 1) = -Real.log 2 + Real.log (gaussD 5 (1 / (5:ℕ)) 1) := by
      rw [Real.log_mul (by norm_num) g1.ne', one_div, Real.log_inv]
    have b3 := log_gaussD 5 (1 / (5:ℕ)) 1 (by norm_num)
    have b4 := log_gaussD 5 (2 / (5:ℕ)) 2 (by norm_num)
    have b5 : Real.log (2 / ((5:ℕ):ℝ)) = Real.log 2 + Real.log (1 / ((5:ℕ):ℝ)) := by
      rw [← Real.log_mul (by norm_num) (by norm_num)]; norm_num
    rw [b5] at b4
    have b6 : 1/2 * gaussD 5 (1 / (5:ℕ)) 5 + 1/2 * gaussD 5 (1 / (5:ℕ)) 1 = 1/2 * gaussD 5 (1 / (5:ℕ)) 1 + 1/2 * gaussD 5 (1 / (5:ℕ)) 5 := by ring
    simp only [bic, logL1D, logL2D, pts5, List.map_cons, List.map_nil, List.sum_cons, List.sum_nil, a0, a1, a2, b6]
    push_cast at *
    rw [l4]
    norm_num at b3 b4
    norm_num at *
    linarith
  · have hx : 0 < Real.exp (-0.5 * 1 / 1) / √(1:ℝ) := by positivity
    have hy : Real.exp (-0.5 * 5 / 1) / √(1:ℝ) ≤ Real.exp (-0.5 * 1 / 1) / √(1:ℝ) := by
      refine div_le_div_of_nonneg_right (Real.exp_le_exp.2 (by norm_num)) (Real.sqrt_nonneg _)
    have hy0 : 0 < Real.exp (-0.5 * 5 / 1) / √(1:ℝ) := by positivity
    have c1 : Real.log (Real.exp (-0.5 * 1 / 1) / √(1:ℝ) + Real.exp (-0.5 * 5 / 1) / √(1:ℝ)) ≤ Real.log (2 * (Real.exp (-0.5 * 1 / 1) / √(1:ℝ))) :=
      Real.log_le_log (by positivity) (by linarith)
    have c2 : Real.log (2 * (Real.exp (-0.5 * 1 / 1) / √(1:ℝ))) = Real.log 2 - 1/2 := by
      rw [Real.log_mul (by norm_num) hx.ne', Real.sqrt_one, div_one, Real.log_exp]; norm_num; ring
    have c3 : Real.exp (-0.5 * 5 / 1) / √(1:ℝ) + Real.exp (-0.5 * 1 / 1) / √(1:ℝ) = Real.exp (-0.5 * 1 / 1) / √(1:ℝ) + Real.exp (-0.5 * 5 / 1) / √(1:ℝ) := by ring
    unfold checkBIC
    simp only
    rw [bic_fold 1 1 one_ne_zero one_ne_zero, bic_fold 1 1 one_ne_zero one_ne_zero]
    simp only [bicCompare, pts5, List.take, List.drop, List.map_cons, List.map_nil, List.sum_cons, List.sum_nil, List.length_cons, List.length_nil, a1, a2, c3]
    rw [if_neg (by norm_num), decide_eq_true_eq]
    push_cast
    rw [l4]
    linarith

/-- The variance of one sample that is the core is zero. -/
example : clusterVar (fun _ : Nat => (0:ℝ)) [7] = some 0 := by simp [clusterVar]
/-- The hypotheses of the theorem are met by the samples 0, 1, 4, 5 around their mean. -/
example : clusterVar (fun x : ℝ => (x - 5/2)^2) [0, 1, 4, 5] = some (17/4) := by
  simp [clusterVar]
  norm_num

end Zm.Cluster

namespace Zm.RANSAC

variable {K P Q : Type*} [Field K] [LinearOrder K]

/-- The number of samples of a trial is at most the number of samples, not negative, and at most five for each parameter. -/
theorem autoNumber_range [IsStrictOrderedRing K] [FloorRing K] (dim n : Nat) (rate : K) (h0 : 0 ≤ rate) (h1 : rate ≤ 1) :
    0 ≤ autoNumber dim n rate ∧ autoNumber dim n rate * 2 ≤ n ∧ autoNumber dim n rate ≤ 5 * dim := by
  have hn : (0:K) ≤ n := Nat.cast_nonneg n
  have hx : (0:K) ≤ min ((dim : K) * 5) ((n : K) * (1 - rate) * (1/2)) := by
    refine le_min (by positivity) ?_
    have : (0:K) ≤ 1 - rate := by linarith
    positivity
  have hle : ((autoNumber dim n rate : ℤ) : K) ≤ min ((dim : K) * 5) ((n : K) * (1 - rate) * (1/2)) := by
    unfold autoNumber trunc
    rw [if_pos hx]
    exact Int.floor_le _
  refine ⟨?_, ?_, ?_⟩
  · unfold autoNumber trunc
    rw [if_pos hx]
    exact Int.floor_nonneg.2 hx
  · have h2 := hle.trans (min_le_right _ _)
    have h3 : (n : K) * (1 - rate) ≤ n := by nlinarith
    have h4 : ((autoNumber dim n rate * 2 : ℤ) : K) ≤ ((n : ℤ) : K) := by
      push_cast
      linarith
    exact_mod_cast h4
  · have h2 := hle.trans (min_le_left _ _)
    have h4 : ((autoNumber dim n rate : ℤ) : K) ≤ ((5 * dim : ℤ) : K) := by
      push_cast
      linarith
    exact_mod_cast h4

/-- **C206.** For a rate of outliers between zero and one, zRANSACAuto makes three trials for each sample of a trial, with at most half of the samples; the samples are rearranged, the
model refined has the most inliers among the trials, whatever the random numbers. -/
theorem zRANSACAuto_spec [IsStrictOrderedRing K] [FloorRing K] (rnd : Nat → Nat → Nat) (hr : InRange rnd) (fit : Q → List P → Q) (err : Q → P → K) (z : Q)
    (dim : Nat) (rate nl : K) (h0 : 0 ≤ rate) (h1 : rate ≤ 1) (q : Q) (sample : List P) :
    ∃ (ns : Nat) (q' : Q) (cands : List Q) (inl sample' : List P), ns * 2 ≤ sample.length ∧ ns ≤ 5 * dim ∧
      zRANSACAuto rnd fit err z dim rate nl q sample = .ok (fit q' inl, sample') ∧ sample'.Perm sample ∧
      inl.Perm (inliers err (nl / 5) q' sample) ∧ cands.length = 3 * ns ∧ Tried fit ns sample z cands ∧
      Kept (fun x => (inliers err (nl / 10) x sample).length) q 0 cands q' := by
  obtain ⟨a, b, c⟩ := autoNumber_range dim sample.length rate h0 h1
  obtain ⟨ns, hns⟩ := Int.eq_ofNat_of_zero_le a
  have hle : autoNumber dim sample.length rate ≤ sample.length := by omega
  obtain ⟨q', cands, inl, sample', e1, e2, e3, e4, e5, e6⟩ :=
    zRANSAC_spec rnd hr fit err z (autoNumber dim sample.length rate) (autoNumber dim sample.length rate * 3) (1/10 * nl) q sample hle
  have t1 : (1/10 * nl * 2 : K) = nl / 5 := by ring
  have t2 : (1/10 * nl : K) = nl / 10 := by ring
  rw [t1] at e3
  rw [t2] at e6
  rw [hns] at e4 e5
  refine ⟨ns, q', cands, inl, sample', by omega, by omega, e1, e2, e3, ?_, by simpa using e5, e6⟩
  rw [e4]
  omega

/-- **C206, violated.** With few samples, fewer than four for half of them outliers, no trial is made: the parameters given decide which samples are inliers. -/
theorem zRANSACAuto_few_violated [IsStrictOrderedRing K] [FloorRing K] (rnd : Nat → Nat → Nat) (hr : InRange rnd) (fit : Q → List P → Q) (err : Q → P → K) (z : Q)
    (dim : Nat) (rate nl : K) (h0 : 0 ≤ rate) (h1 : rate ≤ 1) (q : Q) (sample : List P) (hs : (sample.length : K) * (1 - rate) < 2) :
    ∃ inl sample', zRANSACAuto rnd fit err z dim rate nl q sample = .ok (fit q inl, sample') ∧ sample'.Perm sample ∧
      inl.Perm (inliers err (nl / 5) q sample) := by
  obtain ⟨a, b, c⟩ := autoNumber_range dim sample.length rate h0 h1
  have hx : (0:K) ≤ min ((dim : K) * 5) ((sample.length : K) * (1 - rate) * (1/2)) := by
    have hn : (0:K) ≤ sample.length := Nat.cast_nonneg _
    have : (0:K) ≤ 1 - rate := by linarith
    exact le_min (by positivity) (by positivity)
  have z0 : autoNumber dim sample.length rate = 0 := by
    have : ((autoNumber dim sample.length rate : ℤ) : K) < ((1 : ℤ) : K) := by
      have h2 : ((autoNumber dim sample.length rate : ℤ) : K) ≤ min ((dim : K) * 5) ((sample.length : K) * (1 - rate) * (1/2)) := by
        unfold autoNumber trunc
        rw [if_pos hx]
        exact Int.floor_le _
      have h3 := h2.trans (min_le_right _ _)
      push_cast
      linarith
    have : autoNumber dim sample.length rate < 1 := by exact_mod_cast this
    omega
  obtain ⟨q', cands, inl, sample', e1, e2, e3, e4, e5, e6⟩ :=
    zRANSAC_spec rnd hr fit err z (autoNumber dim sample.length rate) (autoNumber dim sample.length rate * 3) (1/10 * nl) q sample (by omega)
  have hc : cands = [] := by
    rw [z0] at e4
    exact List.eq_nil_of_length_eq_zero e4
  have hq : q' = q := by
    rcases e6 with ⟨h, _⟩ | ⟨l, r, h, _⟩
    · exact h
    · rw [hc] at h
      exact absurd h (by simp)
  rw [hq] at e1 e3
  have t1 : (1/10 * nl * 2 : K) = nl / 5 := by ring
  rw [t1] at e3
  exact ⟨inl, sample', e1, e2, e3⟩

/-- Ten samples of which half may be outliers, and one parameter: two samples for each trial. -/
example : autoNumber (K := ℚ) 1 10 (1/2) = 2 := by
  unfold autoNumber trunc
  norm_num

end Zm.RANSAC
