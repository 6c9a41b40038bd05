import Verif.Model.ClusterLS
import Verif.Props.LE
import Mathlib.Algebra.Order.BigOperators.Group.Finset
import Mathlib.Tactic.LinearCombination

/-! # Clusters of linear sums (C197) -/

set_option linter.unusedSectionVars false

namespace Zm.ClusterLS
open Zm Finset

section
variable {K : Type*} [Field K] [LinearOrder K] [IsStrictOrderedRing K]

/-- How far the last number of a sample is from the linear sum of the others with the coefficients of the core, the constant last. -/
def Err (n : Nat) (p core : Nat → K) : K := ∑ i ∈ range (n-1), core i * p i + core (n-1) - p (n-1)

/-- Sum of the squared errors with loads. -/
def Loss (n : Nat) (pl : List (K × (Nat → K))) (core : Nat → K) : K := (pl.map fun p => p.1 * Err n p.2 core ^ 2).sum

theorem set1_back (p : Nat → K) (i : Nat) (x : K) : set1 (set1 p i x) i (p i) = p := by
  funext j
  by_cases h : j = i
  · subst h; rw [set1_same]
  · rw [set1_ne _ _ h, set1_ne _ _ h]

theorem inner_feat (n : Nat) (hn : 0 < n) (p core : Nat → K) : ∑ i ∈ range n, core i * set1 p (n-1) 1 i = ∑ i ∈ range (n-1), core i * p i + core (n-1) := by
  obtain ⟨m, rfl⟩ : ∃ m, n = m + 1 := ⟨n - 1, by omega⟩
  rw [Nat.add_sub_cancel, sum_range_succ, set1_same, mul_one]
  congr 1
  refine sum_congr rfl fun i hi => ?_
  rw [set1_ne _ _ (by have := mem_range.1 hi; omega)]

/-- C197: the error of a sample, and the sample afterwards, which is as it was. -/
theorem errorLS_correct (n : Nat) (hn : 0 < n) (p core : Nat → K) : errorLS n p core = (Err n p core, p) := by
  unfold errorLS inner
  dsimp only
  rw [forUp_add 0 n _ 0 (by omega), zero_add, set1_back, Nat.Ico_zero_eq_range, inner_feat n hn]
  rfl

theorem acc_spec (n : Nat) (pl : List (K × (Nat → K))) (s : Acc K) :
    let t := pl.foldl (fun s p => addSample n p.1 p.2 s) s
    (∀ i j, t.c i j = s.c i j + (pl.map fun p => p.1 * (set1 p.2 (n-1) 1 i * set1 p.2 (n-1) 1 j)).sum) ∧
    (∀ i, t.b i = s.b i + (pl.map fun p => p.1 * (p.2 (n-1) * set1 p.2 (n-1) 1 i)).sum) ∧
    t.done = (pl.map Prod.snd).reverse ++ s.done := by
  induction pl generalizing s with
  | nil => simp
  | cons p pl ih =>
    obtain ⟨h1, h2, h3⟩ := ih (addSample n p.1 p.2 s)
    refine ⟨fun i j => ?_, fun i => ?_, ?_⟩
    · rw [List.foldl_cons, h1, List.map_cons, List.sum_cons]
      show s.c i j + p.1 * _ * _ + _ = _
      ring
    · rw [List.foldl_cons, h2, List.map_cons, List.sum_cons]
      show s.b i + p.1 * _ * _ + _ = _
      ring
    · rw [List.foldl_cons, h3]
      show _ ++ (set1 (set1 p.2 (n-1) 1) (n-1) (p.2 (n-1)) :: s.done) = _
      rw [set1_back]
      simp

theorem sum_list_comm {ι : Type*} (l : List ι) (n : Nat) (f : ι → Nat → K) : ∑ j ∈ range n, (l.map fun p => f p j).sum = (l.map fun p => ∑ j ∈ range n, f p j).sum := by
  induction l with
  | nil => simp
  | cons a l ih => simp only [List.map_cons, List.sum_cons, sum_add_distrib, ih]

theorem sum_list_sub {ι : Type*} (l : List ι) (f g : ι → K) : (l.map fun p => f p - g p).sum = (l.map f).sum - (l.map g).sum := by
  induction l with
  | nil => simp
  | cons a l ih => simp only [List.map_cons, List.sum_cons, ih]; ring

/-- A solution of the normal equations minimises the loss. -/
theorem loss_min (n : Nat) (hn : 0 < n) (pl : List (K × (Nat → K))) (hpos : ∀ p ∈ pl, 0 ≤ p.1) (x : Nat → K)
    (hx : ∀ i, i < n → ∑ j ∈ range n, (pl.map fun p => p.1 * (set1 p.2 (n-1) 1 i * set1 p.2 (n-1) 1 j)).sum * x j = (pl.map fun p => p.1 * (p.2 (n-1) * set1 p.2 (n-1) 1 i)).sum)
    (y : Nat → K) : Loss n pl x ≤ Loss n pl y := by
  have hE : ∀ (p z : Nat → K), Err n p z = ∑ j ∈ range n, z j * set1 p (n-1) 1 j - p (n-1) := by
    intro p z
    rw [inner_feat n hn]
    rfl
  have horth : ∀ i, i < n → (pl.map fun p => p.1 * (Err n p.2 x * set1 p.2 (n-1) 1 i)).sum = 0 := by
    intro i hi
    have h := hx i hi
    have e : ∑ j ∈ range n, (pl.map fun p => p.1 * (set1 p.2 (n-1) 1 i * set1 p.2 (n-1) 1 j)).sum * x j =
        (pl.map fun p => ∑ j ∈ range n, p.1 * (set1 p.2 (n-1) 1 i * set1 p.2 (n-1) 1 j) * x j).sum := by
      rw [← sum_list_comm]
      refine sum_congr rfl fun j _ => ?_
      rw [List.sum_map_mul_right]
    rw [e] at h
    have e2 : (pl.map fun p => p.1 * (Err n p.2 x * set1 p.2 (n-1) 1 i)) = pl.map fun p => (∑ j ∈ range n, p.1 * (set1 p.2 (n-1) 1 i * set1 p.2 (n-1) 1 j) * x j) - p.1 * (p.2 (n-1) * set1 p.2 (n-1) 1 i) := by
      refine List.map_congr_left fun p _ => ?_
      have e3 : ∑ j ∈ range n, p.1 * (set1 p.2 (n-1) 1 i * set1 p.2 (n-1) 1 j) * x j = p.1 * set1 p.2 (n-1) 1 i * ∑ j ∈ range n, x j * set1 p.2 (n-1) 1 j := by
        rw [mul_sum]
        exact sum_congr rfl fun j _ => by ring
      rw [hE, e3]
      ring
    rw [e2, sum_list_sub, h, sub_self]
  have hcross : (pl.map fun p => p.1 * (Err n p.2 x * (Err n p.2 y - Err n p.2 x))).sum = 0 := by
    have e : (pl.map fun p => p.1 * (Err n p.2 x * (Err n p.2 y - Err n p.2 x))) = pl.map fun p => ∑ j ∈ range n, (y j - x j) * (p.1 * (Err n p.2 x * set1 p.2 (n-1) 1 j)) := by
      refine List.map_congr_left fun p _ => ?_
      have e1 : Err n p.2 y - Err n p.2 x = ∑ j ∈ range n, (y j - x j) * set1 p.2 (n-1) 1 j := by
        rw [hE, hE]
        simp_rw [sub_mul, sum_sub_distrib]
        ring
      rw [e1, mul_sum, mul_sum]
      exact sum_congr rfl fun j _ => by ring
    rw [e, ← sum_list_comm]
    refine sum_eq_zero fun j hj => ?_
    rw [List.sum_map_mul_left, horth j (mem_range.1 hj), mul_zero]
  have hsq : Loss n pl y = Loss n pl x + 2 * (pl.map fun p => p.1 * (Err n p.2 x * (Err n p.2 y - Err n p.2 x))).sum + (pl.map fun p => p.1 * (Err n p.2 y - Err n p.2 x) ^ 2).sum := by
    unfold Loss
    rw [← List.sum_map_mul_left, ← List.sum_map_add, ← List.sum_map_add]
    congr 1
    exact List.map_congr_left fun p _ => by ring
  rw [hsq, hcross]
  have : 0 ≤ (pl.map fun p => p.1 * (Err n p.2 y - Err n p.2 x) ^ 2).sum := by
    refine List.sum_nonneg fun v hv => ?_
    obtain ⟨p, hp, rfl⟩ := List.mem_map.1 hv
    exact mul_nonneg (hpos p hp) (sq_nonneg _)
  linarith

/-- C197, the equations have one solution: the loaded mean minimises the sum of the squared errors with the loads, and all samples are as they were. -/
theorem loadedMeanLS_partial (n : Nat) (hn : 0 < n) (pl : List (K × (Nat → K))) (hne : pl ≠ []) (hpos : ∀ p ∈ pl, 0 ≤ p.1) (mean : Nat → K)
    (hreg : ¬ LE.Singular n fun i j => (pl.map fun p => p.1 * (set1 p.2 (n-1) 1 i * set1 p.2 (n-1) 1 j)).sum) :
    ∃ x, loadedMeanLS 0 n pl mean = .ok (x, pl.map Prod.snd) ∧ ∀ y, Loss n pl x ≤ Loss n pl y := by
  obtain ⟨h1, h2, h3⟩ := acc_spec n pl ⟨fun _ _ => 0, fun _ => 0, []⟩
  unfold loadedMeanLS
  rw [if_neg (by simpa using hne)]
  dsimp only
  set t := pl.foldl (fun s p => addSample n p.1 p.2 s) (⟨fun _ _ => 0, fun _ => 0, []⟩ : Acc K) with ht
  have hc : t.c = fun i j => (pl.map fun p => p.1 * (set1 p.2 (n-1) 1 i * set1 p.2 (n-1) 1 j)).sum := by
    funext i j
    rw [h1, zero_add]
  have hb : t.b = fun i => (pl.map fun p => p.1 * (p.2 (n-1) * set1 p.2 (n-1) 1 i)).sum := by
    funext i
    rw [h2, zero_add]
  rcases LE.zLESolveGauss_correct n t.c t.b mean with ⟨x, e, hx⟩ | ⟨-, hs⟩
  · rw [e]
    refine ⟨x, ?_, loss_min n hn pl hpos x fun i hi => ?_⟩
    · rw [h3]
      simp
    · have := hx i hi
      rw [hc, hb] at this
      exact this
  · rw [hc] at hs
    exact absurd hs hreg

/-- C197, the equations have one solution: the core of a cluster minimises the sum of the squared errors, and all samples are as they were. -/
theorem coreLS_partial (n : Nat) (hn : 0 < n) (pl : List (Nat → K)) (hne : pl ≠ []) (core : Nat → K)
    (hreg : ¬ LE.Singular n fun i j => (pl.map fun p => set1 p (n-1) 1 i * set1 p (n-1) 1 j).sum) :
    ∃ x, coreLS 0 n pl core = .ok (x, pl) ∧ ∀ y, (pl.map fun p => Err n p x ^ 2).sum ≤ (pl.map fun p => Err n p y ^ 2).sum := by
  have e : coreLS 0 n pl core = loadedMeanLS 0 n (pl.map fun p => (1, p)) core := by
    unfold coreLS loadedMeanLS
    rw [List.foldl_map, List.isEmpty_map]
  have hl : ∀ z, Loss n (pl.map fun p => ((1 : K), p)) z = (pl.map fun p => Err n p z ^ 2).sum := by
    intro z
    unfold Loss
    rw [List.map_map]
    congr 1
    exact List.map_congr_left fun p _ => by simp
  obtain ⟨x, hx, hm⟩ := loadedMeanLS_partial n hn (pl.map fun p => ((1 : K), p)) (by simpa using hne) (by simp) core (by
    have e2 : (fun i j => ((pl.map fun p => ((1 : K), p)).map fun p => p.1 * (set1 p.2 (n-1) 1 i * set1 p.2 (n-1) 1 j)).sum) = fun i j => (pl.map fun p => set1 p (n-1) 1 i * set1 p (n-1) 1 j).sum := by
      funext i j
      rw [List.map_map]
      congr 1
      exact List.map_congr_left fun p _ => by simp
    rw [e2]
    exact hreg)
  refine ⟨x, ?_, fun y => ?_⟩
  · rw [e, hx, List.map_map]
    congr 2
    exact List.map_id'' (fun _ => rfl) pl
  · rw [← hl, ← hl]
    exact hm y

/-- C197 is violated by a cluster with fewer samples than coefficients: the failure of the solver is not noticed, and whatever was in the core before is taken for the result. -/
theorem coreLS_singular_violated : coreLS 0 2 [fun i => if i = 0 then (1 : ℚ) else 5] (fun i => if i = 0 then 100 else 7) = .ok (fun i => if i = 0 then 100 else 7, [fun i => if i = 0 then (1 : ℚ) else 5]) ∧
    Err 2 (fun i => if i = 0 then (1 : ℚ) else 5) (fun i => if i = 0 then 100 else 7) = 102 ∧ Err 2 (fun i => if i = 0 then (1 : ℚ) else 5) (fun i => if i = 0 then 0 else 5) = 0 := by
  refine ⟨?_, by decide +kernel, by decide +kernel⟩
  obtain ⟨h1, h2, h3⟩ := acc_spec 2 [((1 : ℚ), fun i => if i = 0 then (1 : ℚ) else 5)] ⟨fun _ _ => 0, fun _ => 0, []⟩
  have hf : (match LE.zLESolveGauss (0 : ℚ) 2 (addSample 2 1 (fun i => if i = 0 then (1 : ℚ) else 5) ⟨fun _ _ => 0, fun _ => 0, []⟩).c
      (addSample 2 1 (fun i => if i = 0 then (1 : ℚ) else 5) ⟨fun _ _ => 0, fun _ => 0, []⟩).b (fun i => if i = 0 then 100 else 7) with | .fail => true | _ => false) = true := by decide +kernel
  unfold coreLS
  simp only [List.isEmpty_cons, Bool.false_eq_true, if_false, List.foldl_cons, List.foldl_nil]
  simp only [List.foldl_cons, List.foldl_nil] at h3
  rw [h3]
  cases e : LE.zLESolveGauss (0 : ℚ) 2 (addSample 2 1 (fun i => if i = 0 then (1 : ℚ) else 5) ⟨fun _ _ => 0, fun _ => 0, []⟩).c
      (addSample 2 1 (fun i => if i = 0 then (1 : ℚ) else 5) ⟨fun _ _ => 0, fun _ => 0, []⟩).b (fun i => if i = 0 then 100 else 7) with
  | ok x => rw [e] at hf; cases hf
  | fail => rfl
  | ub => rw [e] at hf; cases hf

/-- Two samples on a line determine it. -/
example : ∃ x, coreLS 0 2 [fun i => if i = 0 then (0 : ℚ) else 1, fun i => if i = 0 then (1 : ℚ) else 3] (fun _ => 0) = .ok (x, [fun i => if i = 0 then (0 : ℚ) else 1, fun i => if i = 0 then (1 : ℚ) else 3]) ∧
    ∀ y, (([fun i => if i = 0 then (0 : ℚ) else 1, fun i => if i = 0 then (1 : ℚ) else 3] : List (Nat → ℚ)).map fun p => Err 2 p x ^ 2).sum ≤
      (([fun i => if i = 0 then (0 : ℚ) else 1, fun i => if i = 0 then (1 : ℚ) else 3] : List (Nat → ℚ)).map fun p => Err 2 p y ^ 2).sum := by
  refine coreLS_partial 2 (by omega) _ (by simp) _ ?_
  rintro ⟨z, ⟨j, hj, hz⟩, h⟩
  have a0 := h 0 (by omega)
  have a1 := h 1 (by omega)
  simp [sum_range_succ, set1] at a0 a1
  have : z 1 = 0 := by linarith
  have : z 0 = 0 := by linarith
  interval_cases j <;> simp_all

end
end Zm.ClusterLS
