import Verif.Model.LEMore
import Verif.Props.LE
import Verif.Props.FFT
import Mathlib.LinearAlgebra.Matrix.ToLinearEquiv
import Mathlib.Algebra.Field.Rat
import Mathlib.Algebra.Order.Ring.Rat

/-! # C14 (failure of the elimination), C113: Lyapunov equation, C114: multiplication by an inverse from the right -/

set_option linter.unusedSectionVars false

namespace Zm.LE
open Zm Misc Finset
variable {K : Type*} [Field K] [LinearOrder K] [IsStrictOrderedRing K]
variable {V : Type*} [AddCommGroup V] [Module K V] {W : Type*} [AddCommGroup W] [Module K W]

/-! ## The elimination fails for every singular matrix, whatever the right-hand side is -/

theorem forUp_sim {σ τ : Type*} (R : σ → τ → Prop) (lo hi : Nat) (f : Nat → σ → σ) (g : Nat → τ → τ) (s : σ) (t : τ) (h0 : R s t)
    (step : ∀ i s t, R s t → R (f i s) (g i t)) : R (forUp lo hi f s) (forUp lo hi g t) := by
  induction hi with
  | zero => rw [forUp_of_le (by omega), forUp_of_le (by omega)]; exact h0
  | succ hi ih =>
    by_cases h : lo ≤ hi
    · rw [forUp_succ h, forUp_succ h]; exact step _ _ _ ih
    · rw [forUp_of_le (by omega), forUp_of_le (by omega)]; exact h0

/-- The matrix and the permutation do not depend on the right-hand side. -/
def SameA (s : GS K V) (t : GS K W) : Prop := s.a = t.a ∧ s.idx = t.idx

theorem elimRow_same (tol : K) (n i p j : Nat) (s : GS K V) (t : GS K W) (h : SameA s t) : SameA (elimRow tol n i p j s) (elimRow tol n i p j t) := by
  obtain ⟨h1, h2⟩ := h
  unfold elimRow SameA
  dsimp only
  rw [h1, h2]
  by_cases g : zIsTol (t.a (t.idx j) i) tol = true
  · rw [g]; simp [h1, h2]
  · rw [Bool.not_eq_true] at g
    rw [g]; simp [h2]

theorem forwardStep_same (tol : K) (n i : Nat) (s : GS K V) (t : GS K W) (h : SameA s t) :
    (forwardStep tol n i s = .fail ∧ forwardStep tol n i t = .fail) ∨
      ∃ s' t', forwardStep tol n i s = .ok s' ∧ forwardStep tol n i t = .ok t' ∧ SameA s' t' := by
  obtain ⟨h1, h2⟩ := h
  unfold forwardStep
  dsimp only
  rw [h1, h2]
  by_cases g : t.a (zMatPivoting n t.a t.idx i i i) i = 0
  · rw [if_pos g, if_pos g]; exact Or.inl ⟨rfl, rfl⟩
  · rw [if_neg g, if_neg g]
    exact Or.inr ⟨_, _, rfl, rfl, forUp_sim SameA _ _ _ _ _ _ ⟨rfl, rfl⟩ fun j s t h => elimRow_same tol n i _ j s t h⟩

theorem forward_same (tol : K) (n lo k : Nat) (s : GS K V) (t : GS K W) (h : SameA s t) (e : forUpM lo (lo+k) (forwardStep tol n) s = .fail) :
    forUpM lo (lo+k) (forwardStep tol n) t = .fail := by
  induction k generalizing s t lo with
  | zero => rw [forUpM_nil (by omega)] at e; cases e
  | succ k ih =>
    rw [forUpM_cons (by omega)] at e ⊢
    rcases forwardStep_same tol n lo s t h with ⟨-, e2⟩ | ⟨s', t', e1, e2, h'⟩
    · rw [e2]; rfl
    · rw [e1] at e
      rw [e2]
      dsimp only [Res.bind] at e ⊢
      rw [show lo + (k + 1) = lo + 1 + k by omega] at e ⊢
      exact ih (lo+1) s' t' h' e

/-- The outcome of the elimination does not depend on the right-hand side. -/
theorem gaussSolve_fail_same (tol : K) (n : Nat) (A : Nat → Nat → K) (B ans : Nat → V) (B' ans' : Nat → W) (h : gaussSolve tol n A B ans = .fail) :
    gaussSolve tol n A B' ans' = .fail := by
  unfold gaussSolve gaussSolveIdx at h ⊢
  dsimp only at h ⊢
  have hb := forUp_sim (fun (p : (Nat → Nat → K) × (Nat → V)) (q : (Nat → Nat → K) × (Nat → W)) => p.1 = q.1) 0 n _ _
    ((zMatColBalancingDST n n A fun _ => 0).1, B) ((zMatColBalancingDST n n A fun _ => 0).1, B') rfl
    (fun i p q e => by
      show (if absMax n (p.1 i) = 0 then p else (forUp 0 n (fun j m => set2 m i j (m i j / absMax n (p.1 i))) p.1, set1 p.2 i ((absMax n (p.1 i))⁻¹ • p.2 i))).1 =
        (if absMax n (q.1 i) = 0 then q else (forUp 0 n (fun j m => set2 m i j (m i j / absMax n (q.1 i))) q.1, set1 q.2 i ((absMax n (q.1 i))⁻¹ • q.2 i))).1
      rw [e]
      by_cases g : absMax n (q.1 i) = 0
      · rw [if_pos g, if_pos g]; exact e
      · rw [if_neg g, if_neg g])
  change (rowBalancingDST n n (zMatColBalancingDST n n A fun _ => 0).1 B).1 = (rowBalancingDST n n (zMatColBalancingDST n n A fun _ => 0).1 B').1 at hb
  have hf : forUpM 0 n (forwardStep tol n) { a := (rowBalancingDST n n (zMatColBalancingDST n n A fun _ => 0).1 B).1, b := (rowBalancingDST n n (zMatColBalancingDST n n A fun _ => 0).1 B).2, idx := fun i => i } = .fail := by
    match e : forUpM 0 n (forwardStep tol n) { a := (rowBalancingDST n n (zMatColBalancingDST n n A fun _ => 0).1 B).1, b := (rowBalancingDST n n (zMatColBalancingDST n n A fun _ => 0).1 B).2, idx := fun i => i } with
    | .fail => rfl
    | .ok _ => rw [e] at h; dsimp only [Res.bind] at h; cases h
    | .ub => rw [e] at h; dsimp only [Res.bind] at h; cases h
  have := forward_same tol n 0 n { a := (rowBalancingDST n n (zMatColBalancingDST n n A fun _ => 0).1 B).1, b := (rowBalancingDST n n (zMatColBalancingDST n n A fun _ => 0).1 B).2, idx := fun i => i }
    { a := (rowBalancingDST n n (zMatColBalancingDST n n A fun _ => 0).1 B').1, b := (rowBalancingDST n n (zMatColBalancingDST n n A fun _ => 0).1 B').2, idx := fun i => i } ⟨hb, rfl⟩ (by rw [Nat.zero_add]; exact hf)
  rw [Nat.zero_add] at this
  rw [this]
  rfl

/-- Every singular matrix is refused. -/
theorem gaussSolve_singular (n : Nat) (A : Nat → Nat → K) (hA : Singular n A) (B ans : Nat → V) : gaussSolve 0 n A B ans = .fail :=
  gaussSolve_fail_same 0 n A _ _ B ans (gaussSolve_singular_fail n A hA n (le_refl _) fun _ _ => 0)

/-- C14, `zLESolveGauss`: every regular equation is solved exactly, and every singular matrix is refused, even if the equation has solutions. -/
theorem zLESolveGauss_iff (n : Nat) (A : Nat → Nat → K) (b ans : Nat → K) :
    (¬ Singular n A → ∃ x, zLESolveGauss 0 n A b ans = .ok x ∧ ∀ i, i < n → ∑ j ∈ range n, A i j * x j = b i) ∧
    (Singular n A → zLESolveGauss 0 n A b ans = .fail) := by
  refine ⟨fun h => ?_, fun h => gaussSolve_singular n A h b ans⟩
  rcases zLESolveGauss_correct n A b ans with e | ⟨-, e⟩
  · exact e
  · exact absurd e h

/-- C18, `zMulInvMatMat`: the same for matrices. -/
theorem zMulInvMatMat_iff (n w : Nat) (m1 m2 m : Nat → Nat → K) :
    (¬ Singular n m1 → ∃ x, zMulInvMatMat 0 n w m1 m2 m = .ok x ∧ ∀ i, i < n → ∀ j : Fin w, ∑ k ∈ range n, m1 i k * x k j = m2 i j) ∧
    (Singular n m1 → zMulInvMatMat 0 n w m1 m2 m = .fail) := by
  refine ⟨fun h => ?_, fun h => gaussSolve_singular n m1 h _ _⟩
  rcases zMulInvMatMat_correct n w m1 m2 m with e | ⟨-, e⟩
  · exact e
  · exact absurd e h

/-! ## C113: Lyapunov equation -/

/-- Specification: `X A + Aᵀ X = B`, entry by entry. -/
def Lyapunov (n : Nat) (A B X : Nat → Nat → K) : Prop :=
  ∀ i j, i < n → j < n → ∑ k ∈ range n, X i k * A k j + ∑ k ∈ range n, A k i * X k j = B i j

theorem forUp_acc2 (n : Nat) (f : Nat → (Nat → Nat → K) → Nat → Nat → K) (G : Nat → Nat → Nat → K) (h : ∀ i t r c, f i t r c = t r c + G i r c) (s : Nat → Nat → K) (r c : Nat) :
    forUp 0 n f s r c = s r c + ∑ i ∈ range n, G i r c := by
  induction n with
  | zero => rw [forUp_of_le (by omega), sum_range_zero, add_zero]
  | succ n ih => rw [forUp_succ (by omega), h, ih, sum_range_succ, add_assoc]

theorem set2_add (m : Nat → Nat → K) (p q : Nat) (x : K) (r c : Nat) : set2 m p q (m p q + x) r c = m r c + if r = p ∧ c = q then x else 0 := by
  unfold set2
  by_cases g : r = p ∧ c = q
  · rw [if_pos g, if_pos g, g.1, g.2]
  · rw [if_neg g, if_neg g, add_zero]

theorem lyapMat_entry (n : Nat) (a : Nat → Nat → K) (r c : Nat) : lyapMat n a r c =
    ∑ i ∈ range n, ∑ j ∈ range n, ∑ k ∈ range n, ((if r = n*i+k ∧ c = n*k+j then a j i else 0) + if r = n*k+i ∧ c = n*j+k then a j i else 0) := by
  unfold lyapMat
  rw [forUp_acc2 n _ (fun i r c => ∑ j ∈ range n, ∑ k ∈ range n, ((if r = n*i+k ∧ c = n*k+j then a j i else 0) + if r = n*k+i ∧ c = n*j+k then a j i else 0)) _ _ r c, zero_add]
  intro i t r c
  rw [forUp_acc2 n _ (fun j r c => ∑ k ∈ range n, ((if r = n*i+k ∧ c = n*k+j then a j i else 0) + if r = n*k+i ∧ c = n*j+k then a j i else 0))]
  intro j t r c
  rw [forUp_acc2 n _ (fun k r c => ((if r = n*i+k ∧ c = n*k+j then a j i else 0) + if r = n*k+i ∧ c = n*j+k then a j i else 0))]
  intro k t r c
  rw [set2_add, set2_add, add_assoc]

/-- Row `n p + q` of the system is the entry `(q, p)` of the equation. -/
theorem lyapMat_row (n : Nat) (a : Nat → Nat → K) (x : Nat → K) (p q : Nat) (hp : p < n) (hq : q < n) :
    ∑ c ∈ range (n*n), lyapMat n a (n*p+q) c * x c = ∑ j ∈ range n, x (n*q+j) * a j p + ∑ j ∈ range n, a j q * x (n*j+p) := by
  simp only [lyapMat_entry]
  rw [sum_congr rfl fun c _ => sum_mul _ _ _, sum_comm]
  have e1 : ∀ i, i ∈ range n → ∑ c ∈ range (n*n), (∑ j ∈ range n, ∑ k ∈ range n, ((if n*p+q = n*i+k ∧ c = n*k+j then a j i else 0) + if n*p+q = n*k+i ∧ c = n*j+k then a j i else 0)) * x c =
      (if i = p then ∑ j ∈ range n, x (n*q+j) * a j p else 0) + if i = q then ∑ j ∈ range n, a j q * x (n*j+p) else 0 := by
    intro i hi
    have hi := mem_range.1 hi
    rw [sum_congr rfl fun c _ => sum_mul _ _ _, sum_comm]
    have e2 : ∀ j, j ∈ range n → ∑ c ∈ range (n*n), (∑ k ∈ range n, ((if n*p+q = n*i+k ∧ c = n*k+j then a j i else 0) + if n*p+q = n*k+i ∧ c = n*j+k then a j i else 0)) * x c =
        (if i = p then x (n*q+j) * a j p else 0) + if i = q then a j q * x (n*j+p) else 0 := by
      intro j hj
      have hj := mem_range.1 hj
      simp only [sum_mul]
      rw [sum_comm]
      have e3 : ∀ k, k ∈ range n → ∑ c ∈ range (n*n), ((if n*p+q = n*i+k ∧ c = n*k+j then a j i else 0) + if n*p+q = n*k+i ∧ c = n*j+k then a j i else 0) * x c =
          (if k = q then if i = p then x (n*q+j) * a j p else 0 else 0) + if k = p then if i = q then a j q * x (n*j+p) else 0 else 0 := by
        intro k hk
        have hk := mem_range.1 hk
        simp only [add_mul, ite_mul, zero_mul, sum_add_distrib]
        congr 1
        · by_cases g : k = q ∧ i = p
          · obtain ⟨rfl, rfl⟩ := g
            rw [if_pos rfl, if_pos rfl]
            simp only [true_and]
            rw [sum_ite_eq', if_pos (mem_range.2 (FFT.pos_lt hj hk)), mul_comm]
          · have hne : ¬ (n*p+q = n*i+k) := fun h => g ⟨(FFT.pos_inj hq hk h).1.symm, (FFT.pos_inj hq hk h).2.symm⟩
            simp only [hne, false_and, if_false, sum_const_zero]
            by_cases g1 : k = q
            · rw [if_pos g1, if_neg fun h => g ⟨g1, h⟩]
            · rw [if_neg g1]
        · by_cases g : k = p ∧ i = q
          · obtain ⟨rfl, rfl⟩ := g
            rw [if_pos rfl, if_pos rfl]
            simp only [true_and]
            rw [sum_ite_eq', if_pos (mem_range.2 (FFT.pos_lt hk hj))]
          · have hne : ¬ (n*p+q = n*k+i) := fun h => g ⟨(FFT.pos_inj hq hi h).2.symm, (FFT.pos_inj hq hi h).1.symm⟩
            simp only [hne, false_and, if_false, sum_const_zero]
            by_cases g1 : k = p
            · rw [if_pos g1, if_neg fun h => g ⟨g1, h⟩]
            · rw [if_neg g1]
      rw [sum_congr rfl e3, sum_add_distrib, sum_ite_eq', sum_ite_eq', if_pos (mem_range.2 hq), if_pos (mem_range.2 hp)]
    rw [sum_congr rfl e2, sum_add_distrib]
    congr 1
    · by_cases g : i = p
      · simp only [if_pos g]
      · simp only [if_neg g, sum_const_zero]
    · by_cases g : i = q
      · simp only [if_pos g]
      · simp only [if_neg g, sum_const_zero]
  rw [sum_congr rfl e1, sum_add_distrib, sum_ite_eq', sum_ite_eq', if_pos (mem_range.2 hq), if_pos (mem_range.2 hp)]

/-- C113, `zLELyapnovSolve`: the answer satisfies `X A + Aᵀ X = B`, and failure is reported exactly if the homogeneous equation has another solution than zero. -/
theorem zLELyapnovSolve_correct (n : Nat) (a b ans : Nat → Nat → K) :
    ((¬ ∃ Z : Nat → Nat → K, (∃ i j, i < n ∧ j < n ∧ Z i j ≠ 0) ∧ Lyapunov n a (fun _ _ => 0) Z) → ∃ X, zLELyapnovSolve 0 n a b ans = .ok X ∧ Lyapunov n a b X) ∧
    ((∃ Z : Nat → Nat → K, (∃ i j, i < n ∧ j < n ∧ Z i j ≠ 0) ∧ Lyapunov n a (fun _ _ => 0) Z) → zLELyapnovSolve 0 n a b ans = .fail) := by
  have key : ∀ (x : Nat → K) (c : Nat → Nat → K), (∀ r, r < n*n → ∑ k ∈ range (n*n), lyapMat n a r k * x k = c (r % n) (r / n)) ↔ Lyapunov n a c (fun i j => x (n*i+j)) := by
    intro x c
    constructor
    · intro h i j hi hj
      have := h (n*j+i) (FFT.pos_lt hi hj)
      rw [lyapMat_row n a x j i hj hi, Nat.mul_add_mod, Nat.mod_eq_of_lt hi, Nat.mul_add_div (by omega), Nat.div_eq_of_lt hi, add_zero] at this
      exact this
    · intro h r hr
      have hn : 0 < n := by
        rcases Nat.eq_zero_or_pos n with rfl | h
        · simp at hr
        · exact h
      have e := h (r % n) (r / n) (Nat.mod_lt _ hn) (Nat.div_lt_of_lt_mul hr)
      rw [← e, ← lyapMat_row n a x (r / n) (r % n) (Nat.div_lt_of_lt_mul hr) (Nat.mod_lt _ hn), Nat.div_add_mod]
  have hsing : Singular (n*n) (lyapMat n a) ↔ ∃ Z : Nat → Nat → K, (∃ i j, i < n ∧ j < n ∧ Z i j ≠ 0) ∧ Lyapunov n a (fun _ _ => 0) Z := by
    constructor
    · rintro ⟨z, ⟨r, hr, hz⟩, h⟩
      have hn : 0 < n := by
        rcases Nat.eq_zero_or_pos n with rfl | h
        · simp at hr
        · exact h
      exact ⟨fun i j => z (n*i+j), ⟨r / n, r % n, Nat.div_lt_of_lt_mul hr, Nat.mod_lt _ hn, by beta_reduce; rw [Nat.div_add_mod]; exact hz⟩, (key z fun _ _ => 0).1 h⟩
    · rintro ⟨Z, ⟨i, j, hi, hj, hz⟩, h⟩
      have hn : 0 < n := by omega
      refine ⟨fun r => Z (r / n) (r % n), ⟨n*i+j, FFT.pos_lt hj hi, ?_⟩, (key (fun r => Z (r / n) (r % n)) fun _ _ => 0).2 ?_⟩
      · beta_reduce; rw [Nat.mul_add_mod, Nat.mod_eq_of_lt hj, Nat.mul_add_div hn, Nat.div_eq_of_lt hj, add_zero]; exact hz
      · intro p q hp hq
        rw [← h p q hp hq]
        congr 1 <;> refine sum_congr rfl fun k hk => ?_ <;> beta_reduce
        · rw [Nat.mul_add_mod, Nat.mod_eq_of_lt (mem_range.1 hk), Nat.mul_add_div hn, Nat.div_eq_of_lt (mem_range.1 hk), add_zero]
        · rw [Nat.mul_add_mod, Nat.mod_eq_of_lt hq, Nat.mul_add_div hn, Nat.div_eq_of_lt hq, add_zero]
  unfold zLELyapnovSolve
  rw [← hsing]
  constructor
  · intro h
    rcases gaussSolve_exact (n*n) (lyapMat n a) (fun r => b (r % n) (r / n)) (fun r => ans (r / n) (r % n)) with ⟨x, e, hx⟩ | ⟨-, e⟩
    · rw [e]
      exact ⟨_, rfl, (key x b).1 hx⟩
    · exact absurd e h
  · intro h
    rw [gaussSolve_singular _ _ h]
    rfl

/-- The header promises failure for a singular `A`: the equation may also have no unique solution for a regular one, such as ((1, 0), (0, -1)). -/
theorem zLELyapnovSolve_regular_violated (b ans : Nat → Nat → ℚ) :
    zLELyapnovSolve (K := ℚ) 0 2 (fun i j => if i = j then (if i = 0 then 1 else -1) else 0) b ans = .fail ∧ ¬ Singular (K := ℚ) 2 (fun i j => if i = j then (if i = 0 then 1 else -1) else 0) := by
  constructor
  · refine (zLELyapnovSolve_correct 2 _ b ans).2 ⟨fun i j => if i = j then 0 else 1, ⟨0, 1, by omega, by omega, by norm_num⟩, ?_⟩
    intro i j hi hj
    have hi' : i = 0 ∨ i = 1 := by omega
    have hj' : j = 0 ∨ j = 1 := by omega
    rcases hi' with rfl | rfl <;> rcases hj' with rfl | rfl <;> norm_num [sum_range_succ]
  · rintro ⟨z, ⟨j, hj, hz⟩, h⟩
    have h0 := h 0 (by omega)
    have h1 := h 1 (by omega)
    norm_num [sum_range_succ] at h0 h1
    have : j = 0 ∨ j = 1 := by omega
    rcases this with rfl | rfl
    · exact hz (by linarith)
    · exact hz (by linarith)

/-- An equation of size two and its solution. -/
example : (match zLELyapnovSolve (K := ℚ) 0 2 (fun i j => if i = 0 then (if j = 0 then 1 else 2) else if j = 0 then 0 else 3) (fun i j => if i = 0 then (if j = 0 then 2 else 4) else if j = 0 then 6 else 5) (fun _ _ => 0) with
    | .ok x => decide (∀ i : Nat, i < 2 → ∀ j : Nat, j < 2 →
        x i 0 * (if j = 0 then 1 else 2) + x i 1 * (if j = 0 then 0 else 3) + (if i = 0 then 1 else 2) * x 0 j + (if i = 0 then 0 else 3) * x 1 j = if i = 0 then (if j = 0 then 2 else 4) else if j = 0 then 6 else 5)
    | _ => false) = true := by decide +kernel

/-! ## C114: multiplication by an inverse matrix from the right -/

/-- A matrix is singular if its transpose is. -/
theorem singular_transpose (n : Nat) (A : Nat → Nat → K) : Singular n (fun i j => A j i) ↔ Singular n A := by
  have key : ∀ A : Nat → Nat → K, Singular n A ↔ ∃ v : Fin n → K, v ≠ 0 ∧ Matrix.mulVec (Matrix.of fun i j : Fin n => A i j) v = 0 := by
    intro A
    constructor
    · rintro ⟨z, ⟨j, hj, hz⟩, h⟩
      refine ⟨fun i => z i, fun e => hz (congrFun e ⟨j, hj⟩), ?_⟩
      ext i
      have := h i i.2
      rw [sum_range] at this
      exact this
    · rintro ⟨v, hv, h⟩
      obtain ⟨j, hj⟩ := Function.ne_iff.1 hv
      refine ⟨fun i => if h : i < n then v ⟨i, h⟩ else 0, ⟨j, j.2, by beta_reduce; rw [dif_pos j.2]; exact hj⟩, fun i hi => ?_⟩
      rw [sum_range]
      have := congrFun h ⟨i, hi⟩
      simp only [Fin.is_lt, dif_pos]
      exact this
  rw [key, key, Matrix.exists_mulVec_eq_zero_iff, Matrix.exists_mulVec_eq_zero_iff, ← Matrix.det_transpose]
  rfl

/-- C114, `zMulMatInvMat` for square matrices: `m m2 = m1` for a regular `m2`, failure for a singular one.  Missing: `m1` with another number of rows than columns. -/
theorem zMulMatInvMat_partial (n : Nat) (m1 m2 : Nat → Nat → K) :
    (¬ Singular n m2 → ∃ m, zMulMatInvMat 0 n n n n n n m1 m2 = .ok m ∧ ∀ i j, i < n → j < n → ∑ k ∈ range n, m i k * m2 k j = m1 i j) ∧
    (Singular n m2 → zMulMatInvMat 0 n n n n n n m1 m2 = .fail) := by
  unfold zMulMatInvMat
  rw [if_neg (by simp), if_neg (by simp), if_neg (by simp), ← singular_transpose]
  constructor
  · intro h
    obtain ⟨x, e, hx⟩ := (zMulInvMatMat_iff n n (fun i j => m2 j i) (fun i j => m1 j i) (fun _ _ => 0)).1 h
    rw [e]
    refine ⟨_, rfl, fun i j hi hj => ?_⟩
    rw [← hx j hj ⟨i, hi⟩]
    refine sum_congr rfl fun k _ => ?_
    unfold unfin
    rw [dif_pos hi, mul_comm]
  · intro h
    rw [(zMulInvMatMat_iff n n (fun i j => m2 j i) (fun i j => m1 j i) (fun _ _ => 0)).2 h]
    rfl

/-- C114 is false of other shapes: a row `m1` and a regular `m2` of size two can be multiplied, but are refused, -/
theorem zMulMatInvMat_refuse_violated (m1 m2 : Nat → Nat → K) : zMulMatInvMat 0 1 2 2 2 1 2 m1 m2 = .fail := by
  unfold zMulMatInvMat
  rw [if_neg (by simp), if_pos (by simp)]

/-- and a `2 × 1` matrix `m1`, which cannot be multiplied, is accepted and read out of bounds. -/
theorem zMulMatInvMat_accept_violated (m1 m2 : Nat → Nat → K) : zMulMatInvMat 0 2 1 2 2 2 1 m1 m2 = .ub := by
  unfold zMulMatInvMat
  rw [if_neg (by simp), if_neg (by simp), if_pos (by simp)]

/-- A regular matrix of size two. -/
example : (match zMulMatInvMat (K := ℚ) 0 2 2 2 2 2 2 (fun i j => (i : ℚ) + j) (fun i j => if i = j then 2 else 1) with
    | .ok x => decide (∀ i : Nat, i < 2 → ∀ j : Nat, j < 2 → x i 0 * (if j = 0 then 2 else 1) + x i 1 * (if j = 0 then 1 else 2) = (i : ℚ) + j)
    | _ => false) = true := by decide +kernel

end Zm.LE
