import Verif.Model.ODE
import Mathlib.Algebra.Polynomial.Derivative
import Mathlib.Algebra.Polynomial.Eval.Degree
import Mathlib.Algebra.Module.LinearMap.End
import Mathlib.Algebra.BigOperators.GroupWithZero.Action
import Mathlib.Tactic.Module
import Mathlib.Tactic.IntervalCases
import Mathlib.Tactic.LinearCombination
import Mathlib.Tactic.FieldSimp
import Mathlib.Tactic.Linarith
import Mathlib.Tactic.NormNum

set_option linter.unusedSectionVars false
set_option linter.unusedVariables false

/-! # Runge-Kutta methods: C52 -/

namespace Zm.ODE
open Zm Polynomial

/-! ## Specification: Runge-Kutta methods and Butcher's order conditions -/

/-- Rooted trees: a single node, or a tree with another one attached to its root. -/
inductive Tree where
  | leaf
  | graft (t u : Tree)

/-- The number of nodes. -/
def Tree.size : Tree → Nat
  | .leaf => 1
  | .graft t u => t.size + u.size

/-- The product of the densities of the subtrees of the root. -/
def Tree.sub : Tree → Nat
  | .leaf => 1
  | .graft t u => t.sub * (u.size * u.sub)

/-- The density of a tree: the product of the sizes of all its subtrees. -/
def Tree.density (t : Tree) : Nat := t.size * t.sub

section
variable {K V : Type*} [Field K] [AddCommGroup V] [Module K V]

/-- The internal weight of a tree for the coefficients `A` with `s` stages. -/
def Tree.weight (s : Nat) (A : Nat → Nat → K) : Tree → Nat → K
  | .leaf => fun _ => 1
  | .graft t u => fun i => t.weight s A i * ∑ j ∈ Finset.range s, A i j * u.weight s A j

/-- Butcher's conditions for order `p`, for every rooted tree of at most `p` nodes, with the condition on the nodes `c`. -/
def OrderCond (s : Nat) (A : Nat → Nat → K) (b c : Nat → K) (p : Nat) : Prop :=
  (∀ i < s, c i = ∑ j ∈ Finset.range s, A i j) ∧
  ∀ t : Tree, t.size ≤ p → ∑ i ∈ Finset.range s, b i * t.weight s A i = 1 / (t.density : K)

/-- `x'` is the result of a step of the explicit Runge-Kutta method with coefficients `A`, `b`, `c`. -/
def IsRK (s : Nat) (A : Nat → Nat → K) (b c : Nat → K) (f : K → V → V) (t : K) (x : V) (dt : K) (x' : V) : Prop :=
  ∃ k : Nat → V, (∀ i < s, k i = f (t + c i * dt) (x + dt • ∑ j ∈ Finset.range i, A i j • k j)) ∧
    x' = x + dt • ∑ i ∈ Finset.range s, b i • k i

/-- A strictly lower triangular matrix from the rows below the diagonal. -/
def lower (l : List (List K)) : Nat → Nat → K := fun i j => ((l.getD i []).getD j 0)

theorem Tree.size_pos (t : Tree) : 0 < t.size := by
  induction t with
  | leaf => exact Nat.one_pos
  | graft t u h1 h2 => simp only [Tree.size]; omega

/-- A property of all trees of at most five nodes. -/
theorem Tree.cases1 (t : Tree) (h : t.size = 1) : t = .leaf := by
  cases t with
  | leaf => rfl
  | graft t u => have := t.size_pos; have := u.size_pos; simp only [Tree.size] at h; omega

theorem Tree.cases2 (t : Tree) (h : t.size = 2) : t = .graft .leaf .leaf := by
  cases t with
  | leaf => simp [Tree.size] at h
  | graft t u =>
    have := t.size_pos; have := u.size_pos; simp only [Tree.size] at h
    rw [t.cases1 (by omega), u.cases1 (by omega)]

theorem Tree.cases3 (t : Tree) (h : t.size = 3) : t = .graft .leaf (.graft .leaf .leaf) ∨ t = .graft (.graft .leaf .leaf) .leaf := by
  cases t with
  | leaf => simp [Tree.size] at h
  | graft t u =>
    have := t.size_pos; have := u.size_pos; simp only [Tree.size] at h
    have h1 : t.size = 1 ∨ t.size = 2 := by omega
    rcases h1 with h1 | h1
    · left; rw [t.cases1 h1, u.cases2 (by omega)]
    · right; rw [t.cases2 h1, u.cases1 (by omega)]

theorem Tree.cases4 (P : Tree → Prop) (t : Tree) (h : t.size = 4)
    (h13 : ∀ u : Tree, u.size = 3 → P (.graft .leaf u)) (h22 : P (.graft (.graft .leaf .leaf) (.graft .leaf .leaf)))
    (h31 : ∀ u : Tree, u.size = 3 → P (.graft u .leaf)) : P t := by
  cases t with
  | leaf => simp [Tree.size] at h
  | graft t u =>
    have := t.size_pos; have := u.size_pos; simp only [Tree.size] at h
    have h1 : t.size = 1 ∨ t.size = 2 ∨ t.size = 3 := by omega
    rcases h1 with h1 | h1 | h1
    · rw [t.cases1 h1]; exact h13 u (by omega)
    · rw [t.cases2 h1, u.cases2 (by omega)]; exact h22
    · rw [u.cases1 (by omega)]; exact h31 t h1

theorem Tree.cases5 (P : Tree → Prop) (t : Tree) (h : t.size = 5)
    (h14 : ∀ u : Tree, u.size = 4 → P (.graft .leaf u)) (h23 : ∀ u : Tree, u.size = 3 → P (.graft (.graft .leaf .leaf) u))
    (h32 : ∀ u : Tree, u.size = 3 → P (.graft u (.graft .leaf .leaf)))
    (h41 : ∀ u : Tree, u.size = 4 → P (.graft u .leaf)) : P t := by
  cases t with
  | leaf => simp [Tree.size] at h
  | graft t u =>
    have := t.size_pos; have := u.size_pos; simp only [Tree.size] at h
    have h1 : t.size = 1 ∨ t.size = 2 ∨ t.size = 3 ∨ t.size = 4 := by omega
    rcases h1 with h1 | h1 | h1 | h1
    · rw [t.cases1 h1]; exact h14 u (by omega)
    · rw [t.cases2 h1]; exact h23 u (by omega)
    · rw [u.cases2 (by omega)]; exact h32 t h1
    · rw [u.cases1 (by omega)]; exact h41 t h1

/-! The conditions in terms of three vectors: the nodes `c`, `d = A c` and `e = A c^2`, and the further products needed. -/

theorem sum_eq {s : Nat} {g h : Nat → K} (hgh : ∀ i < s, g i = h i) : ∑ i ∈ Finset.range s, g i = ∑ i ∈ Finset.range s, h i :=
  Finset.sum_congr rfl fun i hi => hgh i (Finset.mem_range.1 hi)

/-- The seventeen conditions up to order five, as usually written, imply the conditions for all trees of at most five nodes. -/
structure Conds (s : Nat) (A : Nat → Nat → K) (b c d e : Nat → K) (p : Nat) : Prop where
  hc : ∀ i < s, c i = ∑ j ∈ Finset.range s, A i j
  hd : ∀ i < s, d i = ∑ j ∈ Finset.range s, A i j * c j
  he : ∀ i < s, e i = ∑ j ∈ Finset.range s, A i j * c j ^ 2
  c1 : ∑ i ∈ Finset.range s, b i = 1
  c2 : 2 ≤ p → ∑ i ∈ Finset.range s, b i * c i = 1/2
  c31 : 3 ≤ p → ∑ i ∈ Finset.range s, b i * c i ^ 2 = 1/3
  c32 : 3 ≤ p → ∑ i ∈ Finset.range s, b i * d i = 1/6
  c41 : 4 ≤ p → ∑ i ∈ Finset.range s, b i * c i ^ 3 = 1/4
  c42 : 4 ≤ p → ∑ i ∈ Finset.range s, b i * (c i * d i) = 1/8
  c43 : 4 ≤ p → ∑ i ∈ Finset.range s, b i * e i = 1/12
  c44 : 4 ≤ p → ∑ i ∈ Finset.range s, b i * ∑ j ∈ Finset.range s, A i j * d j = 1/24
  c51 : 5 ≤ p → ∑ i ∈ Finset.range s, b i * c i ^ 4 = 1/5
  c52 : 5 ≤ p → ∑ i ∈ Finset.range s, b i * (c i ^ 2 * d i) = 1/10
  c53 : 5 ≤ p → ∑ i ∈ Finset.range s, b i * (c i * e i) = 1/15
  c54 : 5 ≤ p → ∑ i ∈ Finset.range s, b i * (c i * ∑ j ∈ Finset.range s, A i j * d j) = 1/30
  c55 : 5 ≤ p → ∑ i ∈ Finset.range s, b i * d i ^ 2 = 1/20
  c56 : 5 ≤ p → ∑ i ∈ Finset.range s, b i * ∑ j ∈ Finset.range s, A i j * c j ^ 3 = 1/20
  c57 : 5 ≤ p → ∑ i ∈ Finset.range s, b i * ∑ j ∈ Finset.range s, A i j * (c j * d j) = 1/40
  c58 : 5 ≤ p → ∑ i ∈ Finset.range s, b i * ∑ j ∈ Finset.range s, A i j * e j = 1/60
  c59 : 5 ≤ p → ∑ i ∈ Finset.range s, b i * ∑ j ∈ Finset.range s, A i j * ∑ l ∈ Finset.range s, A j l * d l = 1/120

section
variable {s : Nat} {A : Nat → Nat → K} {b c d e : Nat → K} {p : Nat}

theorem Conds.order (h : Conds s A b c d e p) (hp : p ≤ 5) : OrderCond s A b c p := by
  refine ⟨h.hc, ?_⟩
  have wL : ∀ i, Tree.weight s A .leaf i = (1 : K) := fun _ => rfl
  have wG : ∀ (t u : Tree) i, Tree.weight s A (.graft t u) i = t.weight s A i * ∑ j ∈ Finset.range s, A i j * u.weight s A j := fun _ _ _ => rfl
  have wc : ∀ i < s, Tree.weight s A (.graft .leaf .leaf) i = c i := by
    intro i hi; rw [wG, wL, one_mul, h.hc i hi]; simp only [wL, mul_one]
  have w3a : ∀ i < s, Tree.weight s A (.graft .leaf (.graft .leaf .leaf)) i = d i := by
    intro i hi; rw [wG, wL, one_mul, h.hd i hi]; exact sum_eq fun j hj => by rw [wc j hj]
  have w3b : ∀ i < s, Tree.weight s A (.graft (.graft .leaf .leaf) .leaf) i = c i ^ 2 := by
    intro i hi; rw [wG, wc i hi, sq]; congr 1; rw [h.hc i hi]; simp only [wL, mul_one]
  -- attaching a tree whose weight is known
  have gl : ∀ (u : Tree) (g : Nat → K), (∀ i < s, u.weight s A i = g i) → ∀ i < s,
      Tree.weight s A (.graft .leaf u) i = ∑ j ∈ Finset.range s, A i j * g j := by
    intro u g hu i hi; rw [wG, wL, one_mul]; exact sum_eq fun j hj => by rw [hu j hj]
  have gr : ∀ (u : Tree) (g : Nat → K), (∀ i < s, u.weight s A i = g i) → ∀ i < s,
      Tree.weight s A (.graft u .leaf) i = g i * c i := by
    intro u g hu i hi; rw [wG, hu i hi]; congr 1; rw [h.hc i hi]; simp only [wL, mul_one]
  have g2l : ∀ (u : Tree) (g : Nat → K), (∀ i < s, u.weight s A i = g i) → ∀ i < s,
      Tree.weight s A (.graft (.graft .leaf .leaf) u) i = c i * ∑ j ∈ Finset.range s, A i j * g j := by
    intro u g hu i hi; rw [wG, wc i hi]; congr 1; exact sum_eq fun j hj => by rw [hu j hj]
  have g2r : ∀ (u : Tree) (g : Nat → K), (∀ i < s, u.weight s A i = g i) → ∀ i < s,
      Tree.weight s A (.graft u (.graft .leaf .leaf)) i = g i * d i := by
    intro u g hu i hi; rw [wG, hu i hi]; congr 1; rw [h.hd i hi]; exact sum_eq fun j hj => by rw [wc j hj]
  have fin : ∀ (t : Tree) (g : Nat → K) (v : K), (∀ i < s, t.weight s A i = g i) → ∑ i ∈ Finset.range s, b i * g i = v → 1 / (t.density : K) = v →
      ∑ i ∈ Finset.range s, b i * t.weight s A i = 1 / (t.density : K) := by
    intro t g v ht hg hv; rw [hv, ← hg]; exact sum_eq fun i hi => by rw [ht i hi]
  -- the trees with four nodes
  have four : 4 ≤ p → ∀ t : Tree, t.size = 4 → ∃ (g : Nat → K) (v : K), (∀ i < s, t.weight s A i = g i) ∧
      (∑ i ∈ Finset.range s, b i * g i = v ∧ 1 / (t.density : K) = v) ∧
      (5 ≤ p → (∑ i ∈ Finset.range s, b i * ∑ j ∈ Finset.range s, A i j * g j = 1 / ((Tree.graft .leaf t).density : K)) ∧
        ∑ i ∈ Finset.range s, b i * (g i * c i) = 1 / ((Tree.graft t .leaf).density : K)) := by
    intro h4 t ht
    refine Tree.cases4 (fun t => ∃ (g : Nat → K) (v : K), (∀ i < s, t.weight s A i = g i) ∧
      (∑ i ∈ Finset.range s, b i * g i = v ∧ 1 / (t.density : K) = v) ∧
      (5 ≤ p → (∑ i ∈ Finset.range s, b i * ∑ j ∈ Finset.range s, A i j * g j = 1 / ((Tree.graft .leaf t).density : K)) ∧
        ∑ i ∈ Finset.range s, b i * (g i * c i) = 1 / ((Tree.graft t .leaf).density : K))) t ht ?_ ?_ ?_
    · intro u hu
      rcases u.cases3 hu with rfl | rfl
      · refine ⟨_, _, gl _ d w3a, ⟨h.c44 h4, by norm_num [Tree.density, Tree.size, Tree.sub]⟩, fun h5 => ⟨?_, ?_⟩⟩
        · rw [h.c59 h5]; norm_num [Tree.density, Tree.size, Tree.sub]
        · rw [show (1 / ((Tree.graft (Tree.graft .leaf (.graft .leaf (.graft .leaf .leaf))) .leaf).density : K)) = 1/30 by
            norm_num [Tree.density, Tree.size, Tree.sub], ← h.c54 h5]
          exact sum_eq fun i _ => by ring
      · refine ⟨e, _, fun i hi => (gl _ _ w3b i hi).trans (h.he i hi).symm, ⟨h.c43 h4, by norm_num [Tree.density, Tree.size, Tree.sub]⟩, fun h5 => ⟨?_, ?_⟩⟩
        · rw [h.c58 h5]; norm_num [Tree.density, Tree.size, Tree.sub]
        · rw [show (1 / ((Tree.graft (Tree.graft .leaf (.graft (.graft .leaf .leaf) .leaf)) .leaf).density : K)) = 1/15 by
            norm_num [Tree.density, Tree.size, Tree.sub], ← h.c53 h5]
          exact sum_eq fun i _ => by ring
    · refine ⟨fun i => c i * d i, _, g2r _ c wc, ⟨h.c42 h4, by norm_num [Tree.density, Tree.size, Tree.sub]⟩, fun h5 => ⟨?_, ?_⟩⟩
      · rw [h.c57 h5]; norm_num [Tree.density, Tree.size, Tree.sub]
      · rw [show (1 / ((Tree.graft (Tree.graft (.graft .leaf .leaf) (.graft .leaf .leaf)) .leaf).density : K)) = 1/10 by
          norm_num [Tree.density, Tree.size, Tree.sub], ← h.c52 h5]
        exact sum_eq fun i _ => by ring
    · intro u hu
      rcases u.cases3 hu with rfl | rfl
      · refine ⟨fun i => d i * c i, _, gr _ d w3a, ⟨(sum_eq fun i _ => by ring).trans (h.c42 h4), by norm_num [Tree.density, Tree.size, Tree.sub]⟩,
          fun h5 => ⟨?_, ?_⟩⟩
        · rw [show (1 / ((Tree.graft .leaf (Tree.graft (.graft .leaf (.graft .leaf .leaf)) .leaf)).density : K)) = 1/40 by
            norm_num [Tree.density, Tree.size, Tree.sub], ← h.c57 h5]
          exact sum_eq fun i _ => by congr 1; exact sum_eq fun j _ => by ring
        · rw [show (1 / ((Tree.graft (Tree.graft (.graft .leaf (.graft .leaf .leaf)) .leaf) .leaf).density : K)) = 1/10 by
            norm_num [Tree.density, Tree.size, Tree.sub], ← h.c52 h5]
          exact sum_eq fun i _ => by ring
      · refine ⟨fun i => c i ^ 2 * c i, _, gr _ _ w3b, ⟨(sum_eq fun i _ => by ring).trans (h.c41 h4), by norm_num [Tree.density, Tree.size, Tree.sub]⟩,
          fun h5 => ⟨?_, ?_⟩⟩
        · rw [show (1 / ((Tree.graft .leaf (Tree.graft (.graft (.graft .leaf .leaf) .leaf) .leaf)).density : K)) = 1/20 by
            norm_num [Tree.density, Tree.size, Tree.sub], ← h.c56 h5]
          exact sum_eq fun i _ => by congr 1; exact sum_eq fun j _ => by ring
        · rw [show (1 / ((Tree.graft (Tree.graft (.graft (.graft .leaf .leaf) .leaf) .leaf) .leaf).density : K)) = 1/5 by
            norm_num [Tree.density, Tree.size, Tree.sub], ← h.c51 h5]
          exact sum_eq fun i _ => by ring
  intro t ht
  have hpos := t.size_pos
  have : t.size = 1 ∨ t.size = 2 ∨ t.size = 3 ∨ t.size = 4 ∨ t.size = 5 := by omega
  rcases this with h1 | h1 | h1 | h1 | h1
  · rw [t.cases1 h1]
    exact fin _ (fun _ => 1) 1 (fun i _ => rfl) (by simpa using h.c1) (by norm_num [Tree.density, Tree.size, Tree.sub])
  · rw [t.cases2 h1]
    exact fin _ c _ wc (h.c2 (by omega)) (by norm_num [Tree.density, Tree.size, Tree.sub])
  · rcases t.cases3 h1 with rfl | rfl
    · exact fin _ d _ w3a (h.c32 (by omega)) (by norm_num [Tree.density, Tree.size, Tree.sub])
    · exact fin _ _ _ w3b (h.c31 (by omega)) (by norm_num [Tree.density, Tree.size, Tree.sub])
  · obtain ⟨g, v, hg, hv, _⟩ := four (by omega) t h1
    exact fin t g v hg hv.1 hv.2
  · have h5 : 5 ≤ p := by omega
    refine Tree.cases5 (fun t => ∑ i ∈ Finset.range s, b i * t.weight s A i = 1 / (t.density : K)) t h1 ?_ ?_ ?_ ?_
    · intro u hu
      obtain ⟨g, v, hg, _, hv⟩ := four (by omega) u hu
      rw [← (hv h5).1]
      exact sum_eq fun i hi => by rw [gl u g hg i hi]
    · intro u hu
      rcases u.cases3 hu with rfl | rfl
      · exact fin _ _ _ (g2l _ d w3a) (h.c54 h5) (by norm_num [Tree.density, Tree.size, Tree.sub])
      · refine fin _ (fun i => c i * e i) _ (fun i hi => ?_) (h.c53 h5) (by norm_num [Tree.density, Tree.size, Tree.sub])
        rw [g2l _ _ w3b i hi, ← h.he i hi]
    · intro u hu
      rcases u.cases3 hu with rfl | rfl
      · refine fin _ (fun i => d i ^ 2) _ (fun i hi => ?_) (h.c55 h5) (by norm_num [Tree.density, Tree.size, Tree.sub])
        rw [g2r _ _ w3a i hi, sq]
      · exact fin _ (fun i => c i ^ 2 * d i) _ (g2r _ _ w3b) (h.c52 h5) (by norm_num [Tree.density, Tree.size, Tree.sub])
    · intro u hu
      obtain ⟨g, v, hg, _, hv⟩ := four (by omega) u hu
      rw [← (hv h5).2]
      exact sum_eq fun i hi => by rw [gr u g hg i hi]
end
end
end Zm.ODE
