import Verif.Props.ODE
import Mathlib.Algebra.Polynomial.AlgebraMap
import Mathlib.Algebra.Polynomial.Eval.Degree
import Mathlib.Algebra.Polynomial.Degree.Lemmas
import Mathlib.Data.Nat.Factorial.Basic
import Mathlib.Algebra.CharZero.Defs
import Mathlib.Analysis.Real.Sqrt

set_option linter.unusedSectionVars false
set_option linter.unusedVariables false

/-! # The explicit Runge-Kutta methods of the library: C52 -/

namespace Zm.ODE
open Zm Polynomial

section
variable {K V : Type*} [Field K] [CharZero K] [AddCommGroup V] [Module K V]

/-! ## What the order conditions give -/

/-- The tree with `m` leaves attached to the root. -/
def bushy : Nat → Tree
  | 0 => .leaf
  | m+1 => .graft (bushy m) .leaf

/-- The tree without branches with `m+1` nodes. -/
def tall : Nat → Tree
  | 0 => .leaf
  | m+1 => .graft .leaf (tall m)

theorem bushy_size (m : Nat) : (bushy m).size = m + 1 := by
  induction m with
  | zero => rfl
  | succ m ih => simp only [bushy, Tree.size, ih]

theorem bushy_density (m : Nat) : (bushy m).density = m + 1 := by
  have : (bushy m).sub = 1 := by
    induction m with
    | zero => rfl
    | succ m ih => simp [bushy, Tree.sub, Tree.size, ih]
  rw [Tree.density, this, bushy_size, mul_one]

theorem tall_size (m : Nat) : (tall m).size = m + 1 := by
  induction m with
  | zero => rfl
  | succ m ih => simp only [tall, Tree.size, ih]; omega

theorem tall_density (m : Nat) : (tall m).density = (m + 1).factorial := by
  have : (tall m).sub = m.factorial := by
    induction m with
    | zero => rfl
    | succ m ih => rw [tall, Tree.sub, ih, tall_size, Nat.factorial_succ]; simp [Tree.sub]
  rw [Tree.density, this, tall_size, Nat.factorial_succ]

variable {s : Nat} {A : Nat → Nat → K} {b c : Nat → K} {p : Nat}

theorem OrderCond.quad (h : OrderCond s A b c p) (m : Nat) (hm : m + 1 ≤ p) : ∑ i ∈ Finset.range s, b i * c i ^ m = 1 / ((m : K) + 1) := by
  have hw : ∀ m, ∀ i < s, (bushy m).weight s A i = c i ^ m := by
    intro m
    induction m with
    | zero => intro i _; rw [pow_zero]; rfl
    | succ m ih =>
      intro i hi
      show (bushy m).weight s A i * ∑ j ∈ Finset.range s, A i j * 1 = _
      rw [ih i hi, pow_succ, h.1 i hi]; simp only [mul_one]
  have := h.2 (bushy m) (by rw [bushy_size]; exact hm)
  rw [bushy_density] at this
  have e : ∑ i ∈ Finset.range s, b i * c i ^ m = ∑ i ∈ Finset.range s, b i * (bushy m).weight s A i := sum_eq fun i hi => by rw [hw m i hi]
  rw [e, this]
  push_cast; rfl

/-- A method of order `p` applied to the derivative of a polynomial of degree at most `p` gives the exact increment. -/
theorem OrderCond.exact (h : OrderCond s A b c p) (P : K[X]) (hP : P.natDegree ≤ p) (t dt : K) :
    dt * ∑ i ∈ Finset.range s, b i * P.derivative.eval (t + c i * dt) = P.eval (t + dt) - P.eval t := by
  let q : K[X] := P.comp (C t + C dt * X)
  have hq : q.natDegree ≤ p := by
    refine (natDegree_comp_le).trans ?_
    calc P.natDegree * (C t + C dt * X).natDegree ≤ P.natDegree * 1 := by
          refine Nat.mul_le_mul le_rfl ?_
          refine (natDegree_add_le _ _).trans ?_
          simp only [natDegree_C, zero_le, sup_of_le_right]
          exact (natDegree_C_mul_le _ _).trans natDegree_X_le
      _ ≤ p := by omega
  have e1 : ∀ y, q.derivative.eval y = dt * P.derivative.eval (t + y * dt) := by
    intro y
    simp only [q, derivative_comp, eval_mul, eval_comp, derivative_add, derivative_C, derivative_mul, derivative_X, eval_add, eval_C, eval_X, eval_zero]
    simp
    left; ring_nf
  have hq' : q.derivative.natDegree < p + 1 := lt_of_le_of_lt (natDegree_derivative_le q) (by omega)
  have e2 : dt * ∑ i ∈ Finset.range s, b i * P.derivative.eval (t + c i * dt) = ∑ i ∈ Finset.range s, b i * q.derivative.eval (c i) := by
    rw [Finset.mul_sum]; refine Finset.sum_congr rfl fun i _ => ?_; rw [e1]; ring
  rw [e2]
  by_cases hp : p = 0
  · subst hp
    rw [eq_C_of_natDegree_le_zero hq, eq_C_of_natDegree_le_zero hP]
    simp
  have hq1 : q.derivative.natDegree < p := by
    have := natDegree_derivative_le q
    omega
  simp only [eval_eq_sum_range' hq1, Finset.mul_sum]
  rw [Finset.sum_comm]
  have e3 : ∀ m ∈ Finset.range p, ∑ i ∈ Finset.range s, b i * (q.derivative.coeff m * c i ^ m) = q.coeff (m+1) := by
    intro m hm
    rw [Finset.mem_range] at hm
    have : ∀ i ∈ Finset.range s, b i * (q.derivative.coeff m * c i ^ m) = q.derivative.coeff m * (b i * c i ^ m) := fun i _ => by ring
    rw [Finset.sum_congr rfl this, ← Finset.mul_sum, h.quad m (by omega), coeff_derivative]
    have : (m : K) + 1 ≠ 0 := by exact_mod_cast Nat.succ_ne_zero m
    field_simp
  rw [Finset.sum_congr rfl e3]
  have e4 : P.eval (t + dt) = q.eval 1 := by simp [q, eval_comp]
  have e5 : P.eval t = q.eval 0 := by simp [q, eval_comp]
  rw [e4, e5, eval_eq_sum_range' (Nat.lt_succ_of_le hq), Finset.sum_range_succ']
  rw [← coeff_zero_eq_eval_zero]
  simp

/-- The coefficient of the `m`-th power of the step for linear equations. -/
def linCoeff (s : Nat) (A : Nat → Nat → K) (b : Nat → K) : Nat → K
  | 0 => 1
  | m+1 => ∑ i ∈ Finset.range s, b i * (tall m).weight s A i

theorem OrderCond.linCoeff (h : OrderCond s A b c p) (m : Nat) (hm : m ≤ p) : linCoeff s A b m = 1 / (m.factorial : K) := by
  cases m with
  | zero => simp [ODE.linCoeff]
  | succ m => rw [ODE.linCoeff, h.2 (tall m) (by rw [tall_size]; exact hm), tall_density]

theorem tall_vanish (hA : ∀ i j, i ≤ j → A i j = 0) (m i : Nat) (h : i < m) : (tall m).weight s A i = 0 := by
  induction m generalizing i with
  | zero => omega
  | succ m ih =>
    show (1 : K) * ∑ j ∈ Finset.range s, A i j * (tall m).weight s A j = 0
    rw [one_mul]
    refine Finset.sum_eq_zero fun j _ => ?_
    by_cases hj : i ≤ j
    · rw [hA i j hj, zero_mul]
    · rw [ih j (by omega), mul_zero]

/-- A step of an explicit method for the linear equation `x' = M x` is a polynomial in `M`; the coefficients depend on the method only. -/
theorem IsRK.linear (hA : ∀ i j, i ≤ j → A i j = 0) (M : V →ₗ[K] V) (t dt : K) (x x' : V) (h : IsRK s A b c (fun _ y => M y) t x dt x') :
    x' = ∑ m ∈ Finset.range (s+1), (dt ^ m * linCoeff s A b m) • (M ^ m) x := by
  obtain ⟨k, hk, hx⟩ := h
  have key : ∀ i, i < s → k i = ∑ m ∈ Finset.range s, (dt ^ m * (tall m).weight s A i) • (M ^ (m+1)) x := by
    intro i
    induction i using Nat.strong_induction_on with
    | _ i ih =>
      intro hi
      rw [hk i hi]
      show M _ = _
      rw [map_add, map_smul, map_sum]
      obtain ⟨s', rfl⟩ := Nat.exists_eq_succ_of_ne_zero (by omega : s ≠ 0)
      rw [Finset.sum_range_succ']
      have e0 : (dt ^ 0 * (tall 0).weight (s'+1) A i) • (M ^ (0+1)) x = M x := by
        show (dt ^ 0 * (1 : K)) • _ = _
        simp
      rw [e0, add_comm]
      congr 1
      have e1 : ∀ j ∈ Finset.range i, M (A i j • k j) = ∑ m ∈ Finset.range (s'+1), (A i j * (dt ^ m * (tall m).weight (s'+1) A j)) • (M ^ (m+2)) x := by
        intro j hj
        rw [Finset.mem_range] at hj
        rw [map_smul, ih j hj (by omega), map_sum, Finset.smul_sum]
        refine Finset.sum_congr rfl fun m _ => ?_
        rw [map_smul, smul_smul]
        congr 1
        rw [pow_succ' M (m+1)]; rfl
      rw [Finset.sum_congr rfl e1, Finset.sum_comm, Finset.smul_sum, Finset.sum_range_succ]
      have hlast : dt • ∑ j ∈ Finset.range i, (A i j * (dt ^ s' * (tall s').weight (s'+1) A j)) • (M ^ (s'+2)) x = 0 := by
        rw [Finset.sum_eq_zero, smul_zero]
        intro j hj
        rw [Finset.mem_range] at hj
        rw [tall_vanish hA s' j (by omega)]; simp
      rw [hlast, add_zero]
      refine Finset.sum_congr rfl fun m _ => ?_
      rw [← Finset.sum_smul, smul_smul]
      congr 1
      show _ = dt ^ (m+1) * (1 * ∑ j ∈ Finset.range (s'+1), A i j * (tall m).weight (s'+1) A j)
      rw [one_mul]
      have : ∑ j ∈ Finset.range (s'+1), A i j * (tall m).weight (s'+1) A j = ∑ j ∈ Finset.range i, A i j * (tall m).weight (s'+1) A j := by
        symm
        refine Finset.sum_subset (Finset.range_subset_range.2 (by omega)) fun j _ hj => ?_
        rw [Finset.mem_range, not_lt] at hj
        rw [hA i j hj, zero_mul]
      rw [this, Finset.mul_sum, Finset.mul_sum]
      exact Finset.sum_congr rfl fun j _ => by ring
  rw [hx, Finset.sum_range_succ']
  have e0 : (dt ^ 0 * linCoeff s A b 0) • (M ^ 0) x = x := by simp [linCoeff]
  rw [e0, add_comm]
  congr 1
  have e1 : ∀ i ∈ Finset.range s, b i • k i = ∑ m ∈ Finset.range s, (b i * (dt ^ m * (tall m).weight s A i)) • (M ^ (m+1)) x := by
    intro i hi
    rw [key i (Finset.mem_range.1 hi), Finset.smul_sum]
    exact Finset.sum_congr rfl fun m _ => smul_smul _ _ _
  rw [Finset.sum_congr rfl e1, Finset.sum_comm, Finset.smul_sum]
  refine Finset.sum_congr rfl fun m _ => ?_
  rw [← Finset.sum_smul, smul_smul]
  congr 1
  rw [linCoeff, Finset.mul_sum, Finset.mul_sum]
  exact Finset.sum_congr rfl fun i _ => by ring

/-- A method: a function that makes a step. -/
abbrev Method (K V : Type*) := (K → V → V) → K → V → K → V

/-- The method is an explicit Runge-Kutta method of order `p`. -/
def HasOrder (K V : Type*) [Field K] [AddCommGroup V] [Module K V] (upd : Method K V) (p : Nat) : Prop :=
  ∃ (s : Nat) (A : Nat → Nat → K) (b c : Nat → K), (∀ i j, i ≤ j → A i j = 0) ∧ OrderCond s A b c p ∧
    ∀ f t x dt, IsRK s A b c f t x dt (upd f t x dt)

/-- What order `p` means for a right-hand side that does not depend on the state: each component that is the derivative of a polynomial of
degree at most `p` in time is integrated exactly. -/
theorem HasOrder.exact {ι : Type*} {upd : Method K (ι → K)} {p : Nat} (h : HasOrder K (ι → K) upd p) (P : ι → K[X])
    (hP : ∀ i, (P i).natDegree ≤ p) (t : K) (x : ι → K) (dt : K) :
    upd (fun t _ i => (P i).derivative.eval t) t x dt = fun i => x i + ((P i).eval (t + dt) - (P i).eval t) := by
  obtain ⟨s, A, b, c, hA, ho, hr⟩ := h
  obtain ⟨k, hk, hx⟩ := hr (fun t _ i => (P i).derivative.eval t) t x dt
  rw [hx]
  funext i
  rw [← ho.exact (P i) (hP i) t dt]
  simp only [Pi.add_apply, Pi.smul_apply, Finset.sum_apply, smul_eq_mul]
  congr 2
  refine Finset.sum_congr rfl fun j hj => ?_
  rw [hk j (Finset.mem_range.1 hj)]

/-- What order `p` means for linear equations: a step agrees with the exponential series up to the `p`-th power of the step. -/
theorem HasOrder.linear {upd : Method K V} {p : Nat} (h : HasOrder K V upd p) :
    ∃ (s : Nat) (φ : Nat → K), (∀ m ≤ p, φ m = 1 / (m.factorial : K)) ∧
      ∀ (M : V →ₗ[K] V) t x dt, upd (fun _ y => M y) t x dt = ∑ m ∈ Finset.range (s+1), (dt ^ m * φ m) • (M ^ m) x := by
  obtain ⟨s, A, b, c, hA, ho, hr⟩ := h
  exact ⟨s, linCoeff s A b, fun m hm => ho.linCoeff m hm, fun M t x dt => (hr _ t x dt).linear hA M t dt x _⟩

/-! ## The methods -/

theorem fcongr {f : K → V → V} {a a' : K} {y y' : V} (h1 : a = a') (h2 : y = y') : f a y = f a' y' := by rw [h1, h2]

/-- The elements of a list of states. -/
def vtbl (l : List V) : Nat → V := fun i => l.getD i 0

macro "conds" : tactic => `(tactic| (
  constructor
  all_goals first
    | (intro i hi; interval_cases i <;> norm_num [Finset.sum_range_succ, lower, tbl]; done)
    | (intro h; exfalso; omega)
    | (norm_num [Finset.sum_range_succ, lower, tbl]; done)
    | skip))

macro "stage" h:term : tactic => `(tactic| (
  refine (show _ = _ from $h).trans (fcongr ?_ ?_)
  · simp only [tbl, List.getD_cons_zero, List.getD_cons_succ]; ring
  · simp only [cat, tbl, vtbl, lower, Finset.sum_range_succ, Finset.sum_range_zero, List.getD_cons_zero, List.getD_cons_succ]; module))

theorem lower_zero (l : List (List K)) (h : ∀ i, (l.getD i []).length ≤ i) (i j : Nat) (hij : i ≤ j) : lower l i j = 0 := by
  unfold lower
  rw [List.getD_eq_getElem?_getD, List.getElem?_eq_none ((h i).trans hij)]
  rfl

/-- C52: the Euler method is of order one. -/
theorem zODEUpdateEuler_order : HasOrder K V zODEUpdateEuler 1 := by
  refine ⟨1, lower [[]], tbl [1], tbl [0], lower_zero _ ?_, ?_, fun f t x dt => ?_⟩
  · intro i; rcases i with _ | i <;> simp
  · refine Conds.order (d := tbl [0]) (e := tbl [0]) ?_ (by norm_num)
    conds
  · obtain ⟨k0, h0⟩ : ∃ k, k = f t x := ⟨_, rfl⟩
    refine ⟨vtbl [k0], ?_, ?_⟩
    · intro i hi
      interval_cases i
      stage h0
    · simp only [zODEUpdateEuler, ← h0]
      simp only [cat, tbl, vtbl, Finset.sum_range_succ, Finset.sum_range_zero, List.getD_cons_zero, List.getD_cons_succ]
      module

/-- C52: the Heun method is of order three. -/
theorem zODEUpdateHeun_order : HasOrder K V zODEUpdateHeun 3 := by
  refine ⟨3, lower [[], [1/3], [0, 2/3]], tbl [1/4, 0, 3/4], tbl [0, 1/3, 2/3], lower_zero _ ?_, ?_, fun f t x dt => ?_⟩
  · intro i; rcases i with _ | _ | _ | i <;> simp
  · refine Conds.order (d := tbl [0, 0, 2/9]) (e := tbl [0, 0, 2/27]) ?_ (by norm_num)
    conds
  · obtain ⟨k0, h0⟩ : ∃ k, k = f t x := ⟨_, rfl⟩
    obtain ⟨k1, h1⟩ : ∃ k, k = f (t + dt/3) (cat x (dt/3) k0) := ⟨_, rfl⟩
    obtain ⟨k2, h2⟩ : ∃ k, k = f (t + dt*2/3) (cat x (dt*2/3) k1) := ⟨_, rfl⟩
    refine ⟨vtbl [k0, k1, k2], ?_, ?_⟩
    · intro i hi
      interval_cases i
      · stage h0
      · stage h1
      · stage h2
    · simp only [zODEUpdateHeun, ← h0, ← h1, ← h2]
      simp only [cat, tbl, vtbl, Finset.sum_range_succ, Finset.sum_range_zero, List.getD_cons_zero, List.getD_cons_succ]
      module

/-- C52: the classical Runge-Kutta method is of order four. -/
theorem zODEUpdateRK4_order : HasOrder K V zODEUpdateRK4 4 := by
  refine ⟨4, lower [[], [1/2], [0, 1/2], [0, 0, 1]], tbl [1/6, 1/3, 1/3, 1/6], tbl [0, 1/2, 1/2, 1], lower_zero _ ?_, ?_, fun f t x dt => ?_⟩
  · intro i; rcases i with _ | _ | _ | _ | i <;> simp
  · refine Conds.order (d := tbl [0, 0, 1/4, 1/2]) (e := tbl [0, 0, 1/8, 1/4]) ?_ (by norm_num)
    conds
  · obtain ⟨k0, h0⟩ : ∃ k, k = f t x := ⟨_, rfl⟩
    obtain ⟨k1, h1⟩ : ∃ k, k = f (t + dt * (1/2)) (cat x (dt * (1/2)) k0) := ⟨_, rfl⟩
    obtain ⟨k2, h2⟩ : ∃ k, k = f (t + dt * (1/2)) (cat x (dt * (1/2)) k1) := ⟨_, rfl⟩
    obtain ⟨k3, h3⟩ : ∃ k, k = f (t + dt) (cat x dt k2) := ⟨_, rfl⟩
    refine ⟨vtbl [k0, k1, k2, k3], ?_, ?_⟩
    · intro i hi
      interval_cases i
      · refine h0.trans (fcongr ?_ ?_) <;> simp [tbl]
      · refine h1.trans (fcongr ?_ ?_)
        · simp only [tbl, List.getD_cons_zero, List.getD_cons_succ]; ring
        · simp only [cat, tbl, vtbl, lower, Finset.sum_range_succ, Finset.sum_range_zero, List.getD_cons_zero, List.getD_cons_succ]; module
      · refine h2.trans (fcongr ?_ ?_)
        · simp only [tbl, List.getD_cons_zero, List.getD_cons_succ]; ring
        · simp only [cat, tbl, vtbl, lower, Finset.sum_range_succ, Finset.sum_range_zero, List.getD_cons_zero, List.getD_cons_succ]; module
      · refine h3.trans (fcongr ?_ ?_)
        · simp only [tbl, List.getD_cons_zero, List.getD_cons_succ]; ring
        · simp only [cat, tbl, vtbl, lower, Finset.sum_range_succ, Finset.sum_range_zero, List.getD_cons_zero, List.getD_cons_succ]; module
    · simp only [zODEUpdateRK4, ← h0, ← h1, ← h2, ← h3]
      simp only [cat, tbl, vtbl, Finset.sum_range_succ, Finset.sum_range_zero, List.getD_cons_zero, List.getD_cons_succ]
      module

/-- C52: the Runge-Kutta-Gill method is of order four. -/
theorem zODEUpdateRKG_order (r2 : K) (hr : r2 ^ 2 = 2) : HasOrder K V (zODEUpdateRKG r2) 4 := by
  refine ⟨4, lower [[], [1/2], [(r2 - 1)/2, 1 - r2/2], [0, -r2/2, 1 + r2/2]], tbl [1/6, (2 - r2)/6, (2 + r2)/6, 1/6], tbl [0, 1/2, 1/2, 1],
    lower_zero _ ?_, ?_, fun f t x dt => ?_⟩
  · intro i; rcases i with _ | _ | _ | _ | i <;> simp
  · refine Conds.order (d := tbl [0, 0, 1/2 - r2/4, 1/2]) (e := tbl [0, 0, 1/4 - r2/8, 1/4]) ?_ (by norm_num)
    constructor
    · intro i hi; interval_cases i <;> simp [Finset.sum_range_succ, lower, tbl] <;> ring
    · intro i hi; interval_cases i <;> simp [Finset.sum_range_succ, lower, tbl] <;> ring
    · intro i hi; interval_cases i <;> simp [Finset.sum_range_succ, lower, tbl] <;> ring
    · simp [Finset.sum_range_succ, tbl]; ring
    · intro _; simp [Finset.sum_range_succ, tbl] <;> ring
    · intro _; simp [Finset.sum_range_succ, tbl] <;> ring
    · intro _; simp [Finset.sum_range_succ, tbl]; linear_combination (-1/24) * hr
    · intro _; simp [Finset.sum_range_succ, tbl] <;> ring
    · intro _; simp [Finset.sum_range_succ, tbl]; linear_combination (-1/48) * hr
    · intro _; simp [Finset.sum_range_succ, tbl]; linear_combination (-1/48) * hr
    · intro _; simp [Finset.sum_range_succ, tbl, lower]; linear_combination (-1/48) * hr
    all_goals (intro h; exfalso; omega)
  · obtain ⟨k0, h0⟩ : ∃ k, k = f t x := ⟨_, rfl⟩
    obtain ⟨k1, h1⟩ : ∃ k, k = f (t + (1/2) * dt) (cat x ((1/2) * dt) k0) := ⟨_, rfl⟩
    obtain ⟨y2, g2⟩ : ∃ y, y = cat (cat (cat x ((1/2) * dt) k0) ((1 - (1/2) * r2) * dt) k1) (-((1 - (1/2) * r2) * dt)) k0 := ⟨_, rfl⟩
    obtain ⟨k2, h2⟩ : ∃ k, k = f (t + (1/2) * dt) y2 := ⟨_, rfl⟩
    obtain ⟨v2, e2⟩ : ∃ v, v = cat (((1/2) * (3 * r2 - 4)) • k0) (2 * (1 - (1/2) * r2)) k1 := ⟨_, rfl⟩
    obtain ⟨y3, g3⟩ : ∃ y, y = cat (cat y2 ((1 + (1/2) * r2) * dt) k2) (-((1 + (1/2) * r2) * dt)) v2 := ⟨_, rfl⟩
    obtain ⟨k3, h3⟩ : ∃ k, k = f (t + dt) y3 := ⟨_, rfl⟩
    refine ⟨vtbl [k0, k1, k2, k3], ?_, ?_⟩
    · intro i hi
      interval_cases i
      · refine h0.trans (fcongr ?_ ?_) <;> simp [tbl]
      · refine h1.trans (fcongr ?_ ?_)
        · simp only [tbl, List.getD_cons_zero, List.getD_cons_succ]
        · simp only [cat, tbl, vtbl, lower, Finset.sum_range_succ, Finset.sum_range_zero, List.getD_cons_zero, List.getD_cons_succ]; module
      · refine h2.trans (fcongr ?_ ?_)
        · simp only [tbl, List.getD_cons_zero, List.getD_cons_succ]
        · rw [g2]
          simp only [cat, tbl, vtbl, lower, Finset.sum_range_succ, Finset.sum_range_zero, List.getD_cons_zero, List.getD_cons_succ]; module
      · refine h3.trans (fcongr ?_ ?_)
        · simp only [tbl, List.getD_cons_zero, List.getD_cons_succ]; ring
        · rw [g3, e2, g2]
          simp only [cat, tbl, vtbl, lower, Finset.sum_range_succ, Finset.sum_range_zero, List.getD_cons_zero, List.getD_cons_succ]
          match_scalars
          · ring
          · linear_combination (-3/4 * dt) * hr
          · linear_combination (1/2 * dt) * hr
          · ring
    · simp only [zODEUpdateRKG, ← h0, ← h1, ← g2, ← h2, ← e2, ← g3, ← h3]
      rw [g3, e2, g2]
      simp only [cat, tbl, vtbl, Finset.sum_range_succ, Finset.sum_range_zero, List.getD_cons_zero, List.getD_cons_succ]
      match_scalars
      · ring
      · linear_combination (dt/6 * (3/2) * 0) * hr
      · linear_combination (dt * 0) * hr
      · ring
      · ring

example : ∃ r : ℝ, r ^ 2 = 2 := ⟨Real.sqrt 2, Real.sq_sqrt (by norm_num)⟩

/-! ## Embedded methods -/

/-- The matrix of coefficients stored row by row in `T.a`. -/
def erkA (T : Tab K) (i j : Nat) : K := if j < i then T.a (i * (i - 1) / 2 + j) else 0

/-- The nodes: the code leaves out the first one, which is zero. -/
def erkC (T : Tab K) (i : Nat) : K := if i = 0 then 0 else T.c (i - 1)

theorem erkArg_spec (a : Nat → K) (dt : K) (k : Nat → V) (x : V) (i l : Nat) :
    erkArg a dt k x i l = (x + dt • ∑ j ∈ Finset.range i, a (l + j) • k j, l + i) := by
  unfold erkArg
  have := forUp_inv (fun j (s : V × Nat) => (cat s.1 (a s.2 * dt) (k j), s.2 + 1)) (x, l)
    (P := fun j s => s = (x + dt • ∑ j ∈ Finset.range j, a (l + j) • k j, l + j)) (Nat.zero_le i) (by simp)
    (by
      rintro j s - - rfl
      rw [Finset.sum_range_succ]
      simp only [cat, Prod.mk.injEq]
      refine ⟨?_, by omega⟩
      module)
  exact this

theorem erkSum_spec (n : Nat) (b : Nat → K) (k : Nat → V) (x : V) (dt : K) :
    erkSum n b k x dt = x + dt • ∑ i ∈ Finset.range n, b i • k i := by
  unfold erkSum
  exact forUp_inv (fun i s => cat s (b i * dt) (k i)) x
    (P := fun j s => s = x + dt • ∑ i ∈ Finset.range j, b i • k i) (Nat.zero_le n) (by simp)
    (by rintro j s - - rfl; rw [Finset.sum_range_succ]; simp only [cat]; module)

theorem erkStages_spec (f : K → V → V) (T : Tab K) (hn : 0 < T.n) (t : K) (x : V) (dt : K) (i : Nat) (hi : i < T.n) :
    erkStages f T.n T.a T.c t x dt i =
      f (t + erkC T i * dt) (x + dt • ∑ j ∈ Finset.range i, erkA T i j • erkStages f T.n T.a T.c t x dt j) := by
  have key := forUp_inv (fun i (s : (Nat → V) × Nat) =>
      (set1 s.1 i (f (t + T.c (i-1) * dt) (erkArg T.a dt s.1 x i s.2).1), (erkArg T.a dt s.1 x i s.2).2)) (set1 (fun _ => 0) 0 (f t x), 0)
    (lo := 1) (hi := T.n)
    (P := fun i s => s.2 = i * (i-1) / 2 ∧ ∀ m < i, s.1 m = f (t + erkC T m * dt) (x + dt • ∑ j ∈ Finset.range m, erkA T m j • s.1 j))
    hn
    (by
      refine ⟨rfl, fun m hm => ?_⟩
      obtain rfl : m = 0 := by omega
      simp [erkC])
    (by
      rintro i ⟨k, l⟩ h1 h2 ⟨rfl, hk⟩
      rw [erkArg_spec]
      refine ⟨(Nat.triangle_succ i).symm, fun m hm => ?_⟩
      have hs : ∀ y : V, ∑ j ∈ Finset.range m, erkA T m j • set1 k i y j = ∑ j ∈ Finset.range m, erkA T m j • k j := by
        intro y
        refine Finset.sum_congr rfl fun j hj => ?_
        rw [Finset.mem_range] at hj
        rw [set1_ne _ _ (by omega)]
      dsimp only
      rw [hs]
      by_cases hmi : m = i
      · subst hmi
        rw [set1_same]
        refine fcongr ?_ ?_
        · rw [erkC, if_neg (by omega)]
        · congr 2
          refine Finset.sum_congr rfl fun j hj => ?_
          rw [erkA, if_pos (Finset.mem_range.1 hj)]
      · rw [set1_ne _ _ hmi]
        exact hk m (by omega))
  exact key.2 i hi

/-- The fine and the coarse estimate are Runge-Kutta methods. -/
theorem erk_isRK (T : Tab K) (hn : 0 < T.n) (f : K → V → V) (t : K) (x : V) (dt : K) :
    IsRK T.n (erkA T) T.bf (erkC T) f t x dt (erkFine T f t x dt) ∧ IsRK T.n (erkA T) T.bc (erkC T) f t x dt (erkCoarse T f t x dt) :=
  ⟨⟨_, fun i hi => erkStages_spec f T hn t x dt i hi, erkSum_spec _ _ _ _ _⟩,
    ⟨_, fun i hi => erkStages_spec f T hn t x dt i hi, erkSum_spec _ _ _ _ _⟩⟩

theorem erkA_zero (T : Tab K) (i j : Nat) (h : i ≤ j) : erkA T i j = 0 := by rw [erkA, if_neg (by omega)]

theorem OrderCond.congr {s : Nat} {A A' : Nat → Nat → K} {b c c' : Nat → K} {p : Nat} (hA : ∀ i < s, ∀ j < s, A i j = A' i j)
    (hc : ∀ i < s, c i = c' i) (h : OrderCond s A' b c' p) : OrderCond s A b c p := by
  have hw : ∀ t : Tree, ∀ i < s, t.weight s A i = t.weight s A' i := by
    intro t
    induction t with
    | leaf => intro i _; rfl
    | graft t u h1 h2 =>
      intro i hi
      show t.weight s A i * ∑ j ∈ Finset.range s, A i j * u.weight s A j = t.weight s A' i * ∑ j ∈ Finset.range s, A' i j * u.weight s A' j
      rw [h1 i hi]
      congr 1
      exact sum_eq fun j hj => by rw [hA i hi j hj, h2 j hj]
  refine ⟨fun i hi => ?_, fun t ht => ?_⟩
  · rw [hc i hi, h.1 i hi]; exact sum_eq fun j hj => (hA i hi j hj).symm
  · rw [← h.2 t ht]; exact sum_eq fun i hi => by rw [hw t i hi]

/-- The coefficients of `rkf45` as a matrix. -/
def rkf45A : Nat → Nat → K := lower [[], [1/4], [3/32, 9/32], [1932/2197, -7200/2197, 7296/2197], [439/216, -8, 3680/513, -845/4104], [-8/27, 2, -3544/2565, 1859/4104, -11/40]]

/-- The nodes of `rkf45`. -/
def rkf45C : Nat → K := tbl [0, 1/4, 3/8, 12/13, 1, 1/2]

theorem rkf45_erk : (∀ i < 6, ∀ j < 6, erkA (rkf45 : Tab K) i j = rkf45A i j) ∧ ∀ i < 6, erkC (rkf45 : Tab K) i = rkf45C i := by
  constructor
  · intro i hi j hj
    interval_cases i <;> interval_cases j <;> simp [erkA, rkf45, rkf45A, lower, tbl]
  · intro i hi
    interval_cases i <;> simp [erkC, rkf45, rkf45C, tbl]

set_option maxHeartbeats 2000000 in
theorem rkf45_fine : OrderCond 6 (erkA (rkf45 : Tab K)) (rkf45 : Tab K).bf (erkC (rkf45 : Tab K)) 5 := by
  refine OrderCond.congr rkf45_erk.1 rkf45_erk.2 (Conds.order (d := tbl [0, 0, 9/128, 72/169, 1/2, 1/8]) (e := tbl [0, 0, 9/512, 576/2197, 1/3, 1/24]) ?_ (by norm_num))
  unfold rkf45A rkf45C rkf45
  conds

set_option maxHeartbeats 2000000 in
theorem rkf45_coarse : OrderCond 6 (erkA (rkf45 : Tab K)) (rkf45 : Tab K).bc (erkC (rkf45 : Tab K)) 4 := by
  refine OrderCond.congr rkf45_erk.1 rkf45_erk.2 (Conds.order (d := tbl [0, 0, 9/128, 72/169, 1/2, 1/8]) (e := tbl [0, 0, 9/512, 576/2197, 1/3, 1/24]) ?_ (by norm_num))
  unfold rkf45A rkf45C rkf45
  conds

/-- The coefficients of `ck45` as a matrix. -/
def ck45A : Nat → Nat → K := lower [[], [1/5], [3/40, 9/40], [3/10, -9/10, 6/5], [-11/54, 5/2, -70/27, 35/27], [1631/55296, 175/512, 575/13824, 44275/110592, 253/4096]]

/-- The nodes of `ck45`. -/
def ck45C : Nat → K := tbl [0, 1/5, 3/10, 3/5, 1, 7/8]

theorem ck45_erk : (∀ i < 6, ∀ j < 6, erkA (ck45 : Tab K) i j = ck45A i j) ∧ ∀ i < 6, erkC (ck45 : Tab K) i = ck45C i := by
  constructor
  · intro i hi j hj
    interval_cases i <;> interval_cases j <;> simp [erkA, ck45, ck45A, lower, tbl]
  · intro i hi
    interval_cases i <;> simp [erkC, ck45, ck45C, tbl]

set_option maxHeartbeats 2000000 in
theorem ck45_fine : OrderCond 6 (erkA (ck45 : Tab K)) (ck45 : Tab K).bf (erkC (ck45 : Tab K)) 4 := by
  refine OrderCond.congr ck45_erk.1 ck45_erk.2 (Conds.order (d := tbl [0, 0, 9/200, 9/50, 1/2, 49/128]) (e := tbl [0, 0, 9/1000, 9/125, 1/3, 343/1536]) ?_ (by norm_num))
  unfold ck45A ck45C ck45
  conds

set_option maxHeartbeats 2000000 in
theorem ck45_coarse : OrderCond 6 (erkA (ck45 : Tab K)) (ck45 : Tab K).bc (erkC (ck45 : Tab K)) 5 := by
  refine OrderCond.congr ck45_erk.1 ck45_erk.2 (Conds.order (d := tbl [0, 0, 9/200, 9/50, 1/2, 49/128]) (e := tbl [0, 0, 9/1000, 9/125, 1/3, 343/1536]) ?_ (by norm_num))
  unfold ck45A ck45C ck45
  conds

/-- The coefficients of `dp45` as a matrix. -/
def dp45A : Nat → Nat → K := lower [[], [1/5], [3/40, 9/40], [44/45, -56/15, 32/9], [19372/6561, -25360/2187, 64448/6561, -212/729], [9017/3168, -355/33, 46732/5247, 49/176, -5103/18656], [35/384, 0, 500/1113, 125/192, -2187/6784, 11/84]]

/-- The nodes of `dp45`. -/
def dp45C : Nat → K := tbl [0, 1/5, 3/10, 4/5, 8/9, 1, 1]

theorem dp45_erk : (∀ i < 7, ∀ j < 7, erkA (dp45 : Tab K) i j = dp45A i j) ∧ ∀ i < 7, erkC (dp45 : Tab K) i = dp45C i := by
  constructor
  · intro i hi j hj
    interval_cases i <;> interval_cases j <;> simp [erkA, dp45, dp45A, lower, tbl]
  · intro i hi
    interval_cases i <;> simp [erkC, dp45, dp45C, tbl]

set_option maxHeartbeats 2000000 in
theorem dp45_fine : OrderCond 7 (erkA (dp45 : Tab K)) (dp45 : Tab K).bf (erkC (dp45 : Tab K)) 5 := by
  refine OrderCond.congr dp45_erk.1 dp45_erk.2 (Conds.order (d := tbl [0, 0, 9/200, 8/25, 32/81, 1/2, 1/2]) (e := tbl [0, 0, 9/1000, 64/375, 512/2187, 1/3, 1/3]) ?_ (by norm_num))
  unfold dp45A dp45C dp45
  conds

set_option maxHeartbeats 2000000 in
theorem dp45_coarse : OrderCond 7 (erkA (dp45 : Tab K)) (dp45 : Tab K).bc (erkC (dp45 : Tab K)) 4 := by
  refine OrderCond.congr dp45_erk.1 dp45_erk.2 (Conds.order (d := tbl [0, 0, 9/200, 8/25, 32/81, 1/2, 1/2]) (e := tbl [0, 0, 9/1000, 64/375, 512/2187, 1/3, 1/3]) ?_ (by norm_num))
  unfold dp45A dp45C dp45
  conds

end
end Zm.ODE
