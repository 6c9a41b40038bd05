import Verif.Model.NLE
import Verif.Props.OptDMMore
import Verif.Props.Lyap
import Mathlib.Analysis.Calculus.Deriv.Add
import Mathlib.Analysis.Calculus.Deriv.Mul
import Mathlib.Analysis.Calculus.Deriv.Pow

/-!
# Simultaneous nonlinear equations

Success means that the equations hold within the tolerance; Newton-Raphson's method on affine equations; Broyden's
update; the numerical Jacobian matrix; the descent methods on the squared error.
-/

set_option linter.unusedSectionVars false

namespace Zm.NLE
open Zm LE Misc OptDM Finset

section
variable {K : Type*} [Field K] [LinearOrder K] [IsStrictOrderedRing K]

/-! ## Specification -/

/-- Half the weighted sum of squares. -/
def halfSquares (ne : Nat) (we f : Nat → K) : K := (∑ k ∈ range ne, we k * f k ^ 2) / 2

/-- The equations hold within `tol` at the variable left, and the error reported is half the weighted sum of squares. -/
def Solves (S : Sys K) (tol : K) (R : Out K) : Prop :=
  ∃ fv, S.f R.var = some fv ∧ (∀ k, k < S.ne → |fv k| ≤ tol) ∧ R.err = some (halfSquares S.ne S.we fv)

theorem sqEval_spec (ne : Nat) (we f : Nat → K) : sqEval ne we f = halfSquares ne we f := by
  unfold sqEval halfSquares
  rw [inner_spec, one_div, inv_mul_eq_div]
  congr 1
  refine sum_congr rfl fun k hk => ?_
  rw [amp_spec, if_pos (mem_range.1 hk)]
  simp only [wt]; ring

/-! ## Success -/

theorem nrLoop_success (S : Sys K) (tol : K) (fuel : Nat) :
    ∀ k i var d idx R, nrLoop S tol fuel k i var d idx = .ok R →
      (R.ret = -1 ∧ R.err = none) ∨ ((i : Int) ≤ R.ret ∧ R.ret < (i + k : Nat) ∧ Solves S tol R) := by
  intro k
  induction k with
  | zero =>
    intro i var d idx R h
    simp only [nrLoop, Res.ok.injEq] at h
    subst h; exact Or.inl ⟨rfl, rfl⟩
  | succ k ih =>
    intro i var d idx R h
    unfold nrLoop at h
    split at h
    · simp at h
    · rename_i fv hfv
      split at h
      · rename_i ht
        cases h
        refine Or.inr ⟨le_rfl, by dsimp only; omega, fv, hfv, (isTol_iff _ _ _).mp ht, by dsimp only; rw [sqEval_spec]⟩
      · rcases hj : S.jac var with j | _ | _
        · rw [hj] at h
          simp only [Res.bind] at h
          rcases hr : nrDirection S idx j fv d with r | _ | _
          · rw [hr] at h
            dsimp only at h
            split at h
            · rcases ih (i+1) _ _ _ R h with h1 | ⟨h1, h2, h3⟩
              · exact Or.inl h1
              · exact Or.inr ⟨by push_cast at h1; omega, by push_cast at h2 ⊢; omega, h3⟩
            · cases h; exact Or.inl ⟨rfl, rfl⟩
            · simp at h
          · rw [hr] at h; simp at h
          · rw [hr] at h; simp at h
        · rw [hj] at h; simp [Res.bind] at h
        · rw [hj] at h; simp [Res.bind] at h

/-- **C135.** For every system, Jacobian matrix, weights and limits: a call of Newton-Raphson's method that returns either
reports failure, or a number below the limit, and then every equation holds within the tolerance. -/
theorem solveNR_success (S : Sys K) (tol : K) (iter : Int) (fuel : Nat) (var : Nat → K) (R : Out K) (h : solveNR S tol iter fuel var = .ok R) :
    (R.ret = -1 ∧ R.err = none) ∨ (0 ≤ R.ret ∧ R.ret < OneD.iterInit iter ∧ Solves S tol R) := by
  rcases nrLoop_success S tol fuel _ _ _ _ _ R h with h1 | ⟨h1, h2, h3⟩
  · exact Or.inl h1
  · exact Or.inr ⟨by simpa using h1, by simpa using h2, h3⟩

theorem step_spec (ztol : K) (f : (Nat → K) → Option (Nat → K)) (var d : Nat → K) :
    ∀ k a xf, step ztol f var d k a = .ok xf → ∃ m : Nat, (xf.1 = fun i => var i - a / 2 ^ m * d i) ∧ f xf.1 = some xf.2 := by
  intro k
  induction k with
  | zero => intro a xf h; simp [step] at h
  | succ k ih =>
    intro a xf h
    unfold step at h
    split at h
    · dsimp only at h
      split at h
      · rename_i fp hfp
        cases h
        refine ⟨0, ?_, hfp⟩
        funext i; rw [pow_zero, div_one]; ring
      · obtain ⟨m, h1, h2⟩ := ih _ _ h
        refine ⟨m+1, ?_, h2⟩
        rw [h1]; funext i
        rw [pow_succ]; field_simp
    · simp at h

theorem broydenLoop_success (S : Sys K) (tol : K) (fuel : Nat) :
    ∀ k i var fv j d R, broydenLoop S tol fuel k i var fv j d = .ok R →
      (R.ret = -1 ∧ R.err = none) ∨ ((i : Int) ≤ R.ret ∧ R.ret < (i + k : Nat) ∧ Solves S tol R) := by
  intro k
  induction k with
  | zero =>
    intro i var fv j d R h
    simp only [broydenLoop, Res.ok.injEq] at h
    subst h; exact Or.inl ⟨rfl, rfl⟩
  | succ k ih =>
    intro i var fv j d R h
    unfold broydenLoop at h
    split at h
    · simp at h
    · cases h; exact Or.inl ⟨rfl, rfl⟩
    · split at h
      · simp at h
      · cases h; exact Or.inl ⟨rfl, rfl⟩
      · rename_i jd _ _ xf hxf
        split at h
        · rename_i ht
          cases h
          obtain ⟨m, -, hf⟩ := step_spec _ _ _ _ _ _ _ hxf
          refine Or.inr ⟨le_rfl, by dsimp only; omega, xf.2, hf, (isTol_iff _ _ _).mp ht, by dsimp only; rw [sqEval_spec]⟩
        · rcases hb : broydenUpdate S.nv jd.1 xf.2 jd.2 with j' | _ | _
          · rw [hb] at h
            simp only [Res.bind] at h
            rcases ih (i+1) _ _ _ _ R h with h1 | ⟨h1, h2, h3⟩
            · exact Or.inl h1
            · exact Or.inr ⟨by push_cast at h1; omega, by push_cast at h2 ⊢; omega, h3⟩
          · rw [hb] at h; simp [Res.bind] at h
          · rw [hb] at h; simp [Res.bind] at h

/-- **C135.** The same for Broyden's method. -/
theorem solveBroyden_success (S : Sys K) (tol : K) (iter : Int) (fuel : Nat) (var : Nat → K) (R : Out K) (h : solveBroyden S tol iter fuel var = .ok R) :
    (R.ret = -1 ∧ R.err = none) ∨ (0 ≤ R.ret ∧ R.ret < OneD.iterInit iter ∧ Solves S tol R) := by
  have hpos : (0 : Int) < OneD.iterInit iter := by
    unfold OneD.iterInit
    split <;> omega
  unfold solveBroyden at h
  split at h
  · simp at h
  · rename_i fv hfv
    split at h
    · rename_i ht
      cases h
      exact Or.inr ⟨le_rfl, hpos, fv, hfv, (isTol_iff _ _ _).mp ht, by dsimp only; rw [sqEval_spec]⟩
    · rcases hj : S.jac var with j | _ | _
      · rw [hj] at h
        simp only [Res.bind] at h
        rcases broydenLoop_success S tol fuel _ _ _ _ _ _ R h with h1 | ⟨h1, h2, h3⟩
        · exact Or.inl h1
        · exact Or.inr ⟨by simpa using h1, by simpa using h2, h3⟩
      · rw [hj] at h; simp [Res.bind] at h
      · rw [hj] at h; simp [Res.bind] at h

/-- The square root of 2 by both methods from 1, with the tolerance 1/100. -/
def root2 : Sys ℚ :=
  { nv := 1, ne := 1, f := fun x => some fun _ => x 0 ^ 2 - 2, jac := fun x => .ok fun _ _ => 2 * x 0, wn := fun _ => 1 / 10 ^ 4, we := fun _ => 1, ztol := 0 }

example : (match solveNR root2 (1 / 100) 0 3 (fun _ => 1) with
    | .ok R => decide (0 < R.ret ∧ |R.var 0 ^ 2 - 2| ≤ 1 / 100) | _ => false) = true := by decide +kernel

example : (match solveBroyden root2 (1 / 100) 0 3 (fun _ => 1) with
    | .ok R => decide (0 < R.ret ∧ |R.var 0 ^ 2 - 2| ≤ 1 / 100) | _ => false) = true := by decide +kernel

/-! ## Newton-Raphson's method -/

theorem regular_solvedIdx (rows cols : Nat) (idx : Nat → Nat) (hidx : PermOn cols idx) (A : Nat → Nat → K) (we d : Nat → K) (hwe : ∀ k, k < rows → 0 ≤ we k)
    (hd : ∀ i, i < cols → 0 < d i) (r ans : Nat → K) :
    ∃ x idx', gaussSolveIdx 0 cols idx (addDiag cols (zMatTQuadNC rows cols A (some we)) d) r ans = .ok (x, idx') ∧ PermOn cols idx' ∧
      ∀ i, i < cols → (∑ j ∈ range cols, (∑ k ∈ range rows, we k * A k i * A k j) * x j) + d i * x i = r i := by
  have hrow : ∀ (x : Nat → K) i, i < cols → ∑ j ∈ range cols, addDiag cols (zMatTQuadNC rows cols A (some we)) d i j * x j =
      (∑ j ∈ range cols, (∑ k ∈ range rows, we k * A k i * A k j) * x j) + d i * x i := by
    intro x i hi
    have : d i * x i = ∑ j ∈ range cols, if i = j then d i * x j else 0 := by
      rw [sum_ite_eq, if_pos (mem_range.2 hi)]
    rw [this, ← sum_add_distrib]
    refine sum_congr rfl fun j hj => ?_
    rw [addDiag_spec, zMatTQuadNC_spec rows cols A (some we) i j hi (mem_range.1 hj)]
    by_cases e : i = j
    · rw [if_pos (c := i = j ∧ i < cols) ⟨e, hi⟩, if_pos e]; simp only [wt]; ring
    · rw [if_neg (c := i = j ∧ i < cols) (by tauto), if_neg e]; simp only [wt]; ring
  rcases gaussSolveIdx_exact cols idx hidx (addDiag cols (zMatTQuadNC rows cols A (some we)) d) r ans with ⟨x, idx', e, hp, hx⟩ | ⟨-, hsing⟩
  · refine ⟨x, idx', e, hp, fun i hi => ?_⟩
    rw [← hrow x i hi, ← hx i hi]
    rfl
  · exfalso
    obtain ⟨z, hz, h0⟩ := hsing
    have h1 := quadForm rows cols A we z
    have h2 : ∑ i ∈ range cols, z i * (∑ j ∈ range cols, (∑ k ∈ range rows, we k * A k i * A k j) * z j) + ∑ i ∈ range cols, d i * z i ^ 2 = 0 := by
      rw [← sum_add_distrib]
      refine sum_eq_zero fun i hi => ?_
      have h3 := h0 i (mem_range.1 hi)
      rw [hrow z i (mem_range.1 hi)] at h3
      linear_combination z i * h3
    have h4 := lt_of_gap cols d z hd hz
    have h5 : 0 ≤ ∑ k ∈ range rows, we k * (Ax cols A z k) ^ 2 := sum_nonneg fun k hk => mul_nonneg (hwe k (mem_range.1 hk)) (sq_nonneg _)
    rw [h1] at h2
    linarith

theorem nrDirection_normal (S : Sys K) (h0 : S.ztol = 0) (idx : Nat → Nat) (hidx : PermOn S.nv idx) (hwe : ∀ k, k < S.ne → 0 ≤ S.we k) (hwn : ∀ i, i < S.nv → 0 < S.wn i)
    (j : Nat → Nat → K) (f d : Nat → K) :
    ∃ x idx', nrDirection S idx j f d = .ok (x, idx') ∧ PermOn S.nv idx' ∧ NormalEq S.ne S.nv j f S.we S.wn (fun _ => 0) x := by
  obtain ⟨x, idx', e, hp, hx⟩ := regular_solvedIdx S.ne S.nv idx hidx j S.we (fun i => S.wn i + 0) hwe (by simpa using hwn)
    (mulTVec S.ne S.nv j (amp S.ne (some S.we) f) (fun _ => 0)) d
  refine ⟨x, idx', ?_, hp, fun i hi => ?_⟩
  · unfold nrDirection; rw [h0, e]
  · have := hx i hi
    rw [rhs_spec _ _ _ _ _ _ hi] at this
    simp only [add_zero, wt] at this
    rw [this, mul_zero, add_zero]

/-- **C136.** The direction of Newton-Raphson's method is the unique minimiser of the weighted squared error of the
linearised equations plus the weighted squared length. -/
theorem nrDirection_spec (S : Sys K) (h0 : S.ztol = 0) (idx : Nat → Nat) (hidx : PermOn S.nv idx) (hwe : ∀ k, k < S.ne → 0 ≤ S.we k) (hwn : ∀ i, i < S.nv → 0 < S.wn i)
    (j : Nat → Nat → K) (f d : Nat → K) :
    ∃ x idx', nrDirection S idx j f d = .ok (x, idx') ∧ PermOn S.nv idx' ∧ Regularised S.ne S.nv j f S.we S.wn (fun _ => 0) x := by
  obtain ⟨x, idx', e, hp, hx⟩ := nrDirection_normal S h0 idx hidx hwe hwn j f d
  exact ⟨x, idx', e, hp, regularised_of _ _ _ _ _ _ _ _ hwe hwn hx⟩

/-- The system of affine equations `A x = b`. -/
def affine (nv ne : Nat) (A : Nat → Nat → K) (b wn we : Nat → K) : Sys K :=
  { nv := nv, ne := ne, f := fun x => some fun k => Ax nv A x k - b k, jac := fun _ => .ok A, wn := wn, we := we, ztol := 0 }

theorem Ax_sub' (cols : Nat) (A : Nat → Nat → K) (x d : Nat → K) (i : Nat) : Ax cols A (fun j => x j + -1 * d j) i = Ax cols A x i - Ax cols A d i := by
  rw [← Ax_sub]; exact Ax_congr _ _ _ _ (fun j _ => by ring) _

/-- One turn on affine equations goes towards every solution. -/
theorem affine_turn (nv ne : Nat) (A : Nat → Nat → K) (b wn we : Nat → K) (x d s : Nat → K) (hwn : ∀ i, i < nv → 0 < wn i)
    (hs : ∀ k, k < ne → Ax nv A s k = b k) (hd : NormalEq ne nv A (fun k => Ax nv A x k - b k) we wn (fun _ => 0) d) :
    2 * (∑ k ∈ range ne, we k * (Ax nv A (fun j => (x j + -1 * d j) - s j) k) ^ 2) + sqDist nv wn s (fun j => x j + -1 * d j) ≤ sqDist nv wn s x := by
  have e1 := cost_expand ne nv A (fun k => Ax nv A x k - b k) we wn (fun _ => 0) d hd (fun j => x j - s j)
  have z1 : sqErr ne nv A (fun k => Ax nv A x k - b k) we (fun j => x j - s j) = 0 := by
    refine sum_eq_zero fun k hk => ?_
    rw [Ax_sub, hs k (mem_range.1 hk)]; ring
  have z2 : sqDist nv wn (fun _ => 0) (fun j => x j - s j) = sqDist nv wn s x := sum_congr rfl fun i _ => by ring
  have z3 : sqErr ne nv A (fun k => Ax nv A x k - b k) we d = ∑ k ∈ range ne, we k * (Ax nv A (fun j => (x j + -1 * d j) - s j) k) ^ 2 := by
    refine sum_congr rfl fun k hk => ?_
    rw [Ax_sub nv A (fun j => x j + -1 * d j) s, Ax_sub', hs k (mem_range.1 hk)]; ring
  have z4 : ∑ k ∈ range ne, we k * (Ax nv A (fun j => (x j - s j) - d j) k) ^ 2 = ∑ k ∈ range ne, we k * (Ax nv A (fun j => (x j + -1 * d j) - s j) k) ^ 2 :=
    sum_congr rfl fun k _ => by rw [Ax_congr nv A _ (fun j => (x j + -1 * d j) - s j) (fun j _ => by ring)]
  have z5 : ∑ i ∈ range nv, wn i * ((x i - s i) - d i) ^ 2 = sqDist nv wn s (fun j => x j + -1 * d j) := sum_congr rfl fun i _ => by ring
  have z6 : 0 ≤ sqDist nv wn (fun _ => 0) d := sum_nonneg fun i hi => mul_nonneg (hwn i (mem_range.1 hi)).le (sq_nonneg _)
  rw [z1, z2, z3, z4, z5] at e1
  linarith

/-- One turn on affine equations does not enlarge the error. -/
theorem affine_turn_err (nv ne : Nat) (A : Nat → Nat → K) (b wn we : Nat → K) (hwe : ∀ k, k < ne → 0 ≤ we k) (hwn : ∀ i, i < nv → 0 < wn i) (x d : Nat → K)
    (hd : NormalEq ne nv A (fun k => Ax nv A x k - b k) we wn (fun _ => 0) d) : sqErr ne nv A b we (fun j => x j + -1 * d j) ≤ sqErr ne nv A b we x := by
  have e0 := cost_expand ne nv A (fun k => Ax nv A x k - b k) we wn (fun _ => 0) d hd (fun _ => 0)
  have z6 : 0 ≤ sqDist nv wn (fun _ => 0) d := sum_nonneg fun i hi => mul_nonneg (hwn i (mem_range.1 hi)).le (sq_nonneg _)
  have y1 : sqErr ne nv A (fun k => Ax nv A x k - b k) we (fun _ => 0) = sqErr ne nv A b we x := by
    refine sum_congr rfl fun k _ => ?_
    have : Ax nv A (fun _ => (0 : K)) k = 0 := sum_eq_zero fun j _ => mul_zero _
    rw [this]; ring
  have y2 : sqDist nv wn (fun _ => 0) (fun _ => (0 : K)) = 0 := sum_eq_zero fun i _ => by ring
  have y3 : sqErr ne nv A (fun k => Ax nv A x k - b k) we d = sqErr ne nv A b we (fun j => x j + -1 * d j) :=
    sum_congr rfl fun k _ => by rw [Ax_sub']; ring
  have y4 : 0 ≤ ∑ k ∈ range ne, we k * (Ax nv A (fun j => (0 : K) - d j) k) ^ 2 := sum_nonneg fun k hk => mul_nonneg (hwe k (mem_range.1 hk)) (sq_nonneg _)
  have y5 : 0 ≤ ∑ i ∈ range nv, wn i * ((0 : K) - d i) ^ 2 := sum_nonneg fun i hi => mul_nonneg (hwn i (mem_range.1 hi)).le (sq_nonneg _)
  rw [y1, y2, y3] at e0
  linarith

theorem affine_step (nv ne : Nat) (A : Nat → Nat → K) (b wn we x d : Nat → K) (fuel : Nat) :
    step (affine nv ne A b wn we).ztol (affine nv ne A b wn we).f x d (fuel+1) 1 = .ok (fun i => x i + -1 * d i, fun k => Ax nv A (fun i => x i + -1 * d i) k - b k) := by
  unfold step
  rw [if_pos (show (1 : K) > (affine nv ne A b wn we).ztol from one_pos)]
  rfl

/-- A turn of the loop on affine equations. -/
theorem affine_next (nv ne : Nat) (A : Nat → Nat → K) (b wn we : Nat → K) (hwe : ∀ k, k < ne → 0 ≤ we k) (hwn : ∀ i, i < nv → 0 < wn i)
    (tol : K) (fuel k i : Nat) (x d : Nat → K) (idx : Nat → Nat) (hidx : PermOn nv idx) :
    ((∀ l, l < ne → |Ax nv A x l - b l| ≤ tol) ∧
      nrLoop (affine nv ne A b wn we) tol (fuel+1) (k+1) i x d idx = .ok { ret := i, var := x, err := some (sqEval ne we fun k => Ax nv A x k - b k) }) ∨
    ∃ d' idx', PermOn nv idx' ∧ NormalEq ne nv A (fun k => Ax nv A x k - b k) we wn (fun _ => 0) d' ∧
      nrLoop (affine nv ne A b wn we) tol (fuel+1) (k+1) i x d idx = nrLoop (affine nv ne A b wn we) tol (fuel+1) k (i+1) (fun j => x j + -1 * d' j) d' idx' := by
  by_cases ht : isTol ne (fun k => Ax nv A x k - b k) tol = true
  · refine Or.inl ⟨(isTol_iff _ _ _).mp ht, ?_⟩
    show (if isTol ne (fun k => Ax nv A x k - b k) tol = true then _ else _) = _
    rw [if_pos ht]; rfl
  · obtain ⟨d', idx', e, hp, hd⟩ := nrDirection_normal (affine nv ne A b wn we) rfl idx hidx hwe hwn A (fun k => Ax nv A x k - b k) d
    refine Or.inr ⟨d', idx', hp, hd, ?_⟩
    show (if isTol ne (fun k => Ax nv A x k - b k) tol = true then _ else
      (nrDirection (affine nv ne A b wn we) idx A (fun k => Ax nv A x k - b k) d).bind _) = _
    rw [if_neg ht, e]
    show (match step (affine nv ne A b wn we).ztol (affine nv ne A b wn we).f x d' (fuel+1) 1 with
      | .ok xf => _ | .fail => _ | .ub => _) = _
    rw [affine_step]

theorem affine_loop (nv ne : Nat) (A : Nat → Nat → K) (b wn we : Nat → K) (hwe : ∀ k, k < ne → 0 ≤ we k) (hwn : ∀ i, i < nv → 0 < wn i) (tol : K) (fuel : Nat) :
    ∀ k i x d idx, PermOn nv idx → ∃ R, nrLoop (affine nv ne A b wn we) tol (fuel+1) k i x d idx = .ok R ∧
      sqErr ne nv A b we R.var ≤ sqErr ne nv A b we x ∧ ∀ s, (∀ k, k < ne → Ax nv A s k = b k) → sqDist nv wn s R.var ≤ sqDist nv wn s x := by
  intro k
  induction k with
  | zero => intro i x d idx _; exact ⟨_, rfl, le_rfl, fun _ _ => le_rfl⟩
  | succ k ih =>
    intro i x d idx hidx
    rcases affine_next nv ne A b wn we hwe hwn tol fuel k i x d idx hidx with ⟨-, e⟩ | ⟨d', idx', hp, hd, e⟩
    · exact ⟨_, e, le_rfl, fun _ _ => le_rfl⟩
    · obtain ⟨R, h1, h2, h3⟩ := ih (i+1) (fun j => x j + -1 * d' j) d' idx' hp
      refine ⟨R, e.trans h1, h2.trans (affine_turn_err nv ne A b wn we hwe hwn x d' hd), fun s hs => (h3 s hs).trans ?_⟩
      have h4 := affine_turn nv ne A b wn we x d' s hwn hs hd
      have h5 : 0 ≤ ∑ k ∈ range ne, we k * (Ax nv A (fun j => (x j + -1 * d' j) - s j) k) ^ 2 := sum_nonneg fun k hk => mul_nonneg (hwe k (mem_range.1 hk)) (sq_nonneg _)
      linarith

/-- **C136.** On affine equations, consistent or not, Newton-Raphson's method always returns; it leaves a squared error
no larger than the first one, and is no farther from any solution than the first point, in the weighted norm. -/
theorem solveNR_affine (nv ne : Nat) (A : Nat → Nat → K) (b wn we : Nat → K) (hwe : ∀ k, k < ne → 0 ≤ we k) (hwn : ∀ i, i < nv → 0 < wn i)
    (tol : K) (iter : Int) (fuel : Nat) (x : Nat → K) :
    ∃ R, solveNR (affine nv ne A b wn we) tol iter (fuel+1) x = .ok R ∧ sqErr ne nv A b we R.var ≤ sqErr ne nv A b we x ∧
      ∀ s, (∀ k, k < ne → Ax nv A s k = b k) → sqDist nv wn s R.var ≤ sqDist nv wn s x :=
  affine_loop nv ne A b wn we hwe hwn tol fuel _ 0 x _ _ (PermOn.id _)

/-- **C136.** Newton-Raphson's method on regular affine equations succeeds within a number of iterations that grows with
the logarithm of the first distance over the tolerance: `σ` is a lower bound of the weighted matrix, `C` an upper
bound of its rows, and each turn shrinks the squared distance from the solution by `1 + 2 σ`. -/
theorem solveNR_affine_succeeds (nv ne : Nat) (A : Nat → Nat → K) (b wn we : Nat → K) (hwe : ∀ k, k < ne → 0 ≤ we k) (hwn : ∀ i, i < nv → 0 < wn i)
    (s : Nat → K) (hs : ∀ k, k < ne → Ax nv A s k = b k)
    (σ : K) (hσ : 0 ≤ σ) (hA : ∀ v : Nat → K, σ * (∑ i ∈ range nv, wn i * v i ^ 2) ≤ ∑ k ∈ range ne, we k * (Ax nv A v k) ^ 2)
    (C : K) (hC : 0 ≤ C) (hU : ∀ k, k < ne → ∀ v : Nat → K, (Ax nv A v k) ^ 2 ≤ C * (∑ i ∈ range nv, wn i * v i ^ 2))
    (tol : K) (htol : 0 ≤ tol) (iter : Int) (fuel : Nat) (x : Nat → K)
    (hiter : C * sqDist nv wn s x ≤ (1 + 2 * σ) ^ (OneD.iterInit iter - 1) * tol ^ 2) :
    ∃ R, solveNR (affine nv ne A b wn we) tol iter (fuel+1) x = .ok R ∧ 0 ≤ R.ret ∧ ∀ k, k < ne → |Ax nv A R.var k - b k| ≤ tol := by
  have main : ∀ (k i : Nat) (x d : Nat → K) (idx : Nat → Nat), PermOn nv idx → C * sqDist nv wn s x ≤ (1 + 2 * σ) ^ k * tol ^ 2 →
      ∃ R, nrLoop (affine nv ne A b wn we) tol (fuel+1) (k+1) i x d idx = .ok R ∧ 0 ≤ R.ret ∧ ∀ k, k < ne → |Ax nv A R.var k - b k| ≤ tol := by
    intro k
    induction k with
    | zero =>
      intro i x d idx hidx hx
      have hin : ∀ l, l < ne → |Ax nv A x l - b l| ≤ tol := by
        intro l hl
        have h1 := hU l hl (fun j => x j - s j)
        rw [Ax_sub, hs l hl] at h1
        have h2 : (Ax nv A x l - b l) ^ 2 ≤ tol ^ 2 := by
          refine h1.trans ?_
          rw [pow_zero, one_mul] at hx
          exact hx
        exact abs_le_of_sq_le_sq h2 htol
      rcases affine_next nv ne A b wn we hwe hwn tol fuel 0 i x d idx hidx with ⟨h, e⟩ | ⟨d', idx', hp, hd, e⟩
      · exact ⟨_, e, by dsimp only; omega, h⟩
      · exfalso
        have : isTol ne (fun k => Ax nv A x k - b k) tol = true := (isTol_iff _ _ _).mpr hin
        have e2 : nrLoop (affine nv ne A b wn we) tol (fuel+1) (0+1) i x d idx = .ok { ret := i, var := x, err := some (sqEval ne we fun k => Ax nv A x k - b k) } := by
          show (if isTol ne (fun k => Ax nv A x k - b k) tol = true then _ else _) = _
          rw [if_pos this]; rfl
        rw [e2] at e
        have e3 : nrLoop (affine nv ne A b wn we) tol (fuel+1) 0 (i+1) (fun j => x j + -1 * d' j) d' idx' = .ok { ret := -1, var := fun j => x j + -1 * d' j, err := none } := rfl
        rw [e3] at e
        simp at e
    | succ k ih =>
      intro i x d idx hidx hx
      rcases affine_next nv ne A b wn we hwe hwn tol fuel (k+1) i x d idx hidx with ⟨h, e⟩ | ⟨d', idx', hp, hd, e⟩
      · exact ⟨_, e, by dsimp only; omega, h⟩
      · have hx' : C * sqDist nv wn s (fun j => x j + -1 * d' j) ≤ (1 + 2 * σ) ^ k * tol ^ 2 := by
          have h4 := affine_turn nv ne A b wn we x d' s hwn hs hd
          have h5 := hA (fun j => (x j + -1 * d' j) - s j)
          have h6 : (1 + 2 * σ) * sqDist nv wn s (fun j => x j + -1 * d' j) ≤ sqDist nv wn s x := by
            have : sqDist nv wn s (fun j => x j + -1 * d' j) = ∑ i ∈ range nv, wn i * ((x i + -1 * d' i) - s i) ^ 2 := rfl
            rw [← this] at h5
            linarith
          have h7 := mul_le_mul_of_nonneg_left h6 hC
          have h8 : (0 : K) < 1 + 2 * σ := by linarith
          rw [pow_succ] at hx
          refine le_of_mul_le_mul_left ?_ h8
          linarith
        obtain ⟨R, h1, h2⟩ := ih (i+1) (fun j => x j + -1 * d' j) d' idx' hp hx'
        exact ⟨R, e.trans h1, h2⟩
  obtain ⟨k, hk⟩ : ∃ k, OneD.iterInit iter = k + 1 := ⟨OneD.iterInit iter - 1, by
    have : 0 < OneD.iterInit iter := by unfold OneD.iterInit; split <;> omega
    omega⟩
  unfold solveNR
  rw [hk] at hiter ⊢
  exact main k 0 x _ _ (PermOn.id _) hiter

/-- Two equations `x + y = 3`, `x - y = 1` from the origin, with unit weights: the solution is `(2, 1)`; 10000 turns
are allowed by default, 40 suffice. -/
example : ∃ R, solveNR (affine (K := ℚ) 2 2 (fun r c => if r = 1 ∧ c = 1 then -1 else 1) (fun k => if k = 0 then 3 else 1) (fun _ => 1) (fun _ => 1)) (1 / 10 ^ 9) 40 1 (fun _ => 0) = .ok R ∧
    0 ≤ R.ret ∧ ∀ k, k < 2 → |Ax 2 (fun r c => if r = 1 ∧ c = 1 then -1 else 1) R.var k - (if k = 0 then 3 else 1)| ≤ 1 / 10 ^ 9 := by
  refine solveNR_affine_succeeds 2 2 _ _ _ _ (fun _ _ => zero_le_one) (fun _ _ => one_pos) (fun i => if i = 0 then 2 else 1) ?_ 2 (by norm_num) ?_ 2 (by norm_num) ?_ _ (by norm_num) 40 0 _ ?_
  · intro k hk
    interval_cases k <;> norm_num [Ax, sum_range_succ]
  · intro v
    simp only [Ax, sum_range_succ, sum_range_zero]
    norm_num
    nlinarith
  · intro k hk v
    interval_cases k <;> simp only [Ax, sum_range_succ, sum_range_zero] <;> norm_num
    · nlinarith [sq_nonneg (v 0 - v 1)]
    · nlinarith [sq_nonneg (v 0 + v 1)]
  · simp only [sqDist, sum_range_succ, sum_range_zero]
    rw [show OneD.iterInit 40 - 1 = 39 from rfl]
    norm_num

/-! ## Broyden's method -/

/-- The direction solves the equation of the matrix in use, which is the one before or a new Jacobian matrix. -/
theorem broydenDirection_spec (S : Sys K) (h0 : S.ztol = 0) (j j' : Nat → Nat → K) (var f d d' : Nat → K) (h : broydenDirection S j var f d = .ok (j', d')) :
    (j' = j ∨ S.jac var = .ok j') ∧ ∀ r, r < S.nv → Ax S.nv j' d' r = f r := by
  unfold broydenDirection at h
  rw [h0] at h
  rcases zLESolveGauss_correct S.nv j f d with ⟨x, e, hx⟩ | ⟨e, -⟩
  · rw [e] at h
    simp only [Res.ok.injEq, Prod.mk.injEq] at h
    obtain ⟨rfl, rfl⟩ := h
    exact ⟨Or.inl rfl, hx⟩
  · rw [e] at h
    dsimp only at h
    rcases hj : S.jac var with j1 | _ | _
    · rw [hj] at h
      simp only [Res.bind] at h
      rcases zLESolveGauss_correct S.nv j1 f d with ⟨x, e, hx⟩ | ⟨e, -⟩
      · rw [e] at h
        simp only [Res.ok.injEq, Prod.mk.injEq] at h
        obtain ⟨rfl, rfl⟩ := h
        exact ⟨Or.inr rfl, hx⟩
      · rw [e] at h; simp at h
    · rw [hj] at h; simp [Res.bind] at h
    · rw [hj] at h; simp [Res.bind] at h

/-- **C137.** Broyden's update changes the image of the direction by minus the new residual, and among all matrices
that do so it is the one nearest to the matrix before (in the sum of squares). -/
theorem broydenUpdate_spec (n : Nat) (j j' : Nat → Nat → K) (f d : Nat → K) (h : broydenUpdate n j f d = .ok j') :
    (∀ r, Ax n j' d r = Ax n j d r - f r) ∧
    ∀ M : Nat → Nat → K, (∀ r, r < n → Ax n M d r = Ax n j d r - f r) →
      ∑ r ∈ range n, ∑ c ∈ range n, (j' r c - j r c) ^ 2 ≤ ∑ r ∈ range n, ∑ c ∈ range n, (M r c - j r c) ^ 2 := by
  unfold broydenUpdate at h
  rw [inner_spec] at h
  by_cases h0 : ∑ k ∈ range n, d k * d k = 0
  · rw [if_pos h0] at h; simp at h
  · rw [if_neg h0] at h
    simp only [Res.ok.injEq] at h
    generalize hN : ∑ k ∈ range n, d k * d k = N at h h0
    have hrow : ∀ r, Ax n j' d r = Ax n j d r - f r := by
      intro r
      have : f r = ∑ c ∈ range n, f r / N * (d c * d c) := by rw [← mul_sum, hN]; field_simp
      unfold Ax
      rw [this, ← sum_sub_distrib]
      refine sum_congr rfl fun c _ => ?_
      rw [← h]; ring
    refine ⟨hrow, fun M hM => sum_le_sum fun r hr => ?_⟩
    have h1 : ∑ c ∈ range n, (M r c - j' r c) * d c = 0 := by
      have := hM r (mem_range.1 hr)
      rw [← hrow r] at this
      unfold Ax at this
      simp only [sub_mul, sum_sub_distrib, this, sub_self]
    have h2 : ∑ c ∈ range n, (M r c - j r c) ^ 2 = ∑ c ∈ range n, (j' r c - j r c) ^ 2 + ∑ c ∈ range n, (M r c - j' r c) ^ 2 + 2 * (-1 / N * f r) * ∑ c ∈ range n, (M r c - j' r c) * d c := by
      rw [mul_sum, ← sum_add_distrib, ← sum_add_distrib]
      refine sum_congr rfl fun c _ => ?_
      have : j' r c = j r c + -1 / N * f r * d c := by rw [← h]
      linear_combination (2 * (M r c - j' r c)) * this
    rw [h1, mul_zero, add_zero] at h2
    rw [h2]
    exact le_add_of_nonneg_right (sum_nonneg fun c _ => sq_nonneg _)

/-- **C137 (partial).** One turn of Broyden's method in which the direction is shortened `m` times: the new matrix maps
the step to the change of the residual divided by `2^m`, which is the secant equation only if the full step was taken. -/
theorem broyden_secant_partial (S : Sys K) (h0 : S.ztol = 0) (j jd j' : Nat → Nat → K) (var f d d' x' f' : Nat → K) (fuel : Nat)
    (h1 : broydenDirection S j var f d = .ok (jd, d')) (h2 : step S.ztol S.f var d' fuel 1 = .ok (x', f')) (h3 : broydenUpdate S.nv jd f' d' = .ok j') :
    ∃ m : Nat, (∀ i, x' i = var i - d' i / 2 ^ m) ∧ ∀ r, r < S.nv → Ax S.nv j' (fun c => x' c - var c) r = (f' r - f r) / 2 ^ m := by
  obtain ⟨m, h4, -⟩ := step_spec _ _ _ _ _ _ _ h2
  refine ⟨m, fun i => ?_, fun r hr => ?_⟩
  · rw [show x' = _ from h4]; ring
  · have h5 := (broydenUpdate_spec _ _ _ _ _ h3).1 r
    rw [(broydenDirection_spec S h0 _ _ _ _ _ _ h1).2 r hr] at h5
    have h6 : Ax S.nv j' (fun c => x' c - var c) r = -(1 / 2 ^ m) * Ax S.nv j' d' r := by
      unfold Ax
      rw [mul_sum]
      refine sum_congr rfl fun c _ => ?_
      rw [show x' = _ from h4]; ring
    rw [h6, h5]; ring

/-- Broyden's method on regular affine equations with the right Jacobian matrix needs one step. -/
theorem solveBroyden_affine (n : Nat) (A : Nat → Nat → K) (hA : ¬ Singular n A) (b wn we : Nat → K) (tol : K) (htol : 0 ≤ tol) (iter : Int) (fuel : Nat) (x : Nat → K) :
    ∃ R, solveBroyden (affine n n A b wn we) tol iter (fuel+1) x = .ok R ∧ R.ret = 0 ∧ ∀ k, k < n → |Ax n A R.var k - b k| ≤ tol := by
  by_cases ht : isTol n (fun k => Ax n A x k - b k) tol = true
  · refine ⟨{ ret := 0, var := x, err := some (sqEval n we fun k => Ax n A x k - b k) }, ?_, rfl, (isTol_iff _ _ _).mp ht⟩
    show (if isTol n (fun k => Ax n A x k - b k) tol = true then _ else _) = _
    rw [if_pos ht]; rfl
  · obtain ⟨d, e, hd⟩ := (zLESolveGauss_iff n A (fun k => Ax n A x k - b k) (fun _ => 0)).1 hA
    have hz : ∀ k, k < n → Ax n A (fun i => x i + -1 * d i) k - b k = 0 := by
      intro k hk
      rw [Ax_sub']
      have : Ax n A d k = Ax n A x k - b k := hd k hk
      rw [this]; ring
    have ht2 : isTol n (fun k => Ax n A (fun i => x i + -1 * d i) k - b k) tol = true := by
      rw [isTol_iff]; intro k hk; rw [hz k hk, abs_zero]; exact htol
    obtain ⟨k, hk⟩ : ∃ k, OneD.iterInit iter = k + 1 := ⟨OneD.iterInit iter - 1, by
      have : 0 < OneD.iterInit iter := by unfold OneD.iterInit; split <;> omega
      omega⟩
    refine ⟨{ ret := 0, var := fun i => x i + -1 * d i, err := some (sqEval n we fun k => Ax n A (fun i => x i + -1 * d i) k - b k) }, ?_, rfl, (isTol_iff _ _ _).mp ht2⟩
    show (if isTol n (fun k => Ax n A x k - b k) tol = true then _ else
      broydenLoop (affine n n A b wn we) tol (fuel+1) (OneD.iterInit iter) 0 x (fun k => Ax n A x k - b k) A (fun _ => 0)) = _
    rw [if_neg ht, hk]
    unfold broydenLoop
    have hdir : broydenDirection (affine n n A b wn we) A x (fun k => Ax n A x k - b k) (fun _ => 0) = .ok (A, d) := by
      unfold broydenDirection
      rw [show zLESolveGauss (affine n n A b wn we).ztol (affine n n A b wn we).nv A (fun k => Ax n A x k - b k) (fun _ => 0) = .ok d from e]
    rw [hdir]
    dsimp only
    rw [affine_step]
    dsimp only
    rw [if_pos (show isTol (affine n n A b wn we).ne _ tol = true from ht2)]
    rfl

example : ¬ Singular 1 (fun _ _ => (2 : ℚ)) := by
  rintro ⟨z, ⟨j, hj, hz⟩, h⟩
  have := h 0 Nat.one_pos
  simp only [sum_range_one] at this
  interval_cases j
  exact hz (by linarith)

/-- `1 - 1/x` for positive `x`. -/
def recip : Sys ℚ :=
  { nv := 1, ne := 1, f := fun x => if 0 < x 0 then some fun _ => 1 - 1 / x 0 else none, jac := fun x => .ok fun _ _ => 1 / x 0 ^ 2, wn := fun _ => 1, we := fun _ => 1, ztol := 0 }

/-- **C137, violated.** The secant equation fails after a shortened step: from 3 the step for `1 - 1/x` is shortened
twice and the new slope is 1/18 instead of 2/9. -/
theorem broyden_secant_violated :
    (match broydenDirection recip (fun _ _ => 1 / 9) (fun _ => 3) (fun _ => 2 / 3) (fun _ => 0) with
      | .ok jd => match step recip.ztol recip.f (fun _ => 3) jd.2 5 1 with
        | .ok xf => match broydenUpdate 1 jd.1 xf.2 jd.2 with
          | .ok j' => decide (xf.1 0 = 3 / 2 ∧ xf.2 0 = 1 / 3 ∧ j' 0 0 * (xf.1 0 - 3) ≠ xf.2 0 - 2 / 3 ∧ j' 0 0 = 1 / 18)
          | _ => false
        | _ => false
      | _ => false) = true := by decide +kernel

/-! ## Numerical Jacobian matrix -/

/-- Central difference of the `k`-th equation with respect to the `i`-th variable. -/
def central (eps : K) (f : (Nat → K) → Nat → K) (x : Nat → K) (k i : Nat) : K := (f (set1 x i (x i + eps)) k - f (set1 x i (x i - eps)) k) / (2 * eps)

theorem jacNGStep_spec (eps : K) (nv ne : Nat) (f : (Nat → K) → Nat → K) (i : Nat) (x j : Nat → K) (hin : nv * i + ne ≤ ne * nv) :
    ∃ j', jacNGStep eps nv ne f i (x, j) = .ok (x, j') ∧ ∀ q, j' q = if nv * i ≤ q ∧ q < nv * i + ne then f (set1 x i (x i + eps)) (q - nv * i) - f (set1 x i (x i - eps)) (q - nv * i) else j q := by
  obtain ⟨j', e, h⟩ := forUpM_ok (lo := 0) (hi := ne)
    (fun k (j : Nat → K) => if nv * i + k < ne * nv then .ok (set1 j (nv * i + k) (f (set1 x i (x i + eps)) k - f (set1 x i (x i - eps)) k)) else .ub) j
    (fun m t => ∀ q, t q = if nv * i ≤ q ∧ q < nv * i + m then f (set1 x i (x i + eps)) (q - nv * i) - f (set1 x i (x i - eps)) (q - nv * i) else j q)
    (Nat.zero_le _) (fun q => by rw [if_neg (by omega)]) (by
      intro k t _ hk ht
      refine ⟨_, if_pos (by omega), fun q => ?_⟩
      by_cases hq : q = nv * i + k
      · subst hq
        rw [set1_same, if_pos (by omega)]
        simp
      · rw [set1_ne _ _ hq, ht q]
        by_cases h2 : nv * i ≤ q ∧ q < nv * i + k
        · rw [if_pos h2, if_pos (by omega)]
        · rw [if_neg h2, if_neg (by omega)])
  refine ⟨j', ?_, h⟩
  unfold jacNGStep
  simp only [set1_set1]
  rw [e]
  simp only [Res.bind, set1_self]

/-- **C138, violated.** The buffer of a matrix with more columns than rows is overrun: with more variables than
equations and no Jacobian matrix given, every call writes outside of the memory. -/
theorem jacNG_overflow_violated (eps : K) (nv ne : Nat) (hne : 0 < ne) (hnv : ne < nv) (f : (Nat → K) → Nat → K) (x j : Nat → K) : jacNG eps nv ne f x j = .ub := by
  have hsome : ∃ i, i < nv ∧ ne * nv < nv * i + ne := by
    refine ⟨nv - 1, by omega, ?_⟩
    obtain ⟨m, rfl⟩ : ∃ m, nv = m + 1 := ⟨nv - 1, by omega⟩
    have h1 : ne * m < (m + 1) * m := Nat.mul_lt_mul_of_pos_right hnv (by omega)
    rw [show m + 1 - 1 = m by omega, Nat.mul_succ]; omega
  classical
  have hfind := Nat.find_spec hsome
  have hmin := fun i => Nat.find_min hsome (m := i)
  generalize Nat.find hsome = i at hfind hmin
  obtain ⟨hi, hout⟩ := hfind
  unfold jacNG
  rw [forUpM_split (Nat.zero_le i) hi.le]
  obtain ⟨t, e, ht⟩ := forUpM_ok (lo := 0) (hi := i) (jacNGStep eps nv ne f) (x, j) (fun _ t => t.1 = x) (Nat.zero_le _) rfl (by
    rintro k ⟨x', j'⟩ _ hk rfl
    have := hmin k hk
    obtain ⟨j'', e, -⟩ := jacNGStep_spec eps nv ne f k x' j' (by by_contra hc; exact this ⟨by omega, by omega⟩)
    exact ⟨_, e, rfl⟩)
  rw [e]
  simp only [Res.bind]
  rw [forUpM_cons hi]
  have hub : jacNGStep eps nv ne f i t = .ub := by
    unfold jacNGStep
    dsimp only
    have hm : ne * nv - nv * i < ne := by omega
    have hge : nv * i ≤ ne * nv ∨ ne * nv < nv * i := by omega
    have key : ∀ g : Nat → K, ∀ s : Nat → K, forUpM 0 ne (fun k (j : Nat → K) => if nv * i + k < ne * nv then Res.ok (set1 j (nv * i + k) (g k)) else .ub) s = .ub := by
      intro g s
      rw [forUpM_split (Nat.zero_le (ne * nv - nv * i)) hm.le]
      obtain ⟨s', e', -⟩ := forUpM_ok (lo := 0) (hi := ne * nv - nv * i) (fun k (j : Nat → K) => if nv * i + k < ne * nv then Res.ok (set1 j (nv * i + k) (g k)) else .ub) s
        (fun _ _ => True) (Nat.zero_le _) trivial (fun k t _ hk _ => ⟨_, if_pos (by omega), trivial⟩)
      rw [e']
      simp only [Res.bind]
      rw [forUpM_cons hm, if_neg (by omega)]
      rfl
    rw [key (fun k => _)]
    rfl
  rw [hub]
  rfl

/-- **C138, violated.** For as many equations as variables the matrix is the transpose of the Jacobian matrix: the
element of row `i` and column `k` is the difference of the `k`-th equation with respect to the `i`-th variable.  The
point is restored. -/
theorem jacNG_square (eps : K) (n : Nat) (f : (Nat → K) → Nat → K) (x j : Nat → K) :
    ∃ j', jacNG eps n n f x j = .ok (x, j') ∧ ∀ i k, i < n → k < n → unflat n j' i k = central eps f x k i := by
  obtain ⟨⟨x', j'⟩, e, hx, h⟩ := forUpM_ok (lo := 0) (hi := n) (jacNGStep eps n n f) (x, j)
    (fun m t => t.1 = x ∧ ∀ i k, i < m → k < n → t.2 (n * i + k) = f (set1 x i (x i + eps)) k - f (set1 x i (x i - eps)) k)
    (Nat.zero_le _) ⟨rfl, fun i k hi => by omega⟩ (by
      rintro m ⟨x', j'⟩ _ hm ⟨rfl, h⟩
      have hb : n * m + n ≤ n * n := by rw [← Nat.mul_succ]; exact Nat.mul_le_mul_left _ hm
      obtain ⟨j'', e, hj⟩ := jacNGStep_spec eps n n f m x' j' hb
      refine ⟨_, e, rfl, fun i k hi hk => ?_⟩
      show j'' (n * i + k) = _
      rw [hj]
      rcases Nat.lt_or_eq_of_le (Nat.le_of_lt_succ hi) with h1 | h1
      · have : n * i + n ≤ n * m := by rw [← Nat.mul_succ]; exact Nat.mul_le_mul_left _ h1
        rw [if_neg (by omega)]
        exact h i k h1 hk
      · subst h1
        rw [if_pos (by omega), Nat.add_sub_cancel_left])
  dsimp only at hx h
  subst hx
  refine ⟨fun q => j' q * ((1/2) / eps), ?_, fun i k hi hk => ?_⟩
  · unfold jacNG; rw [e]; rfl
  · unfold unflat central
    beta_reduce
    rw [h i k hi hk]
    rw [div_div, mul_one_div]

/-- **C138 (partial).** The matrix is right for functions of one variable, whatever the number of equations. -/
theorem jacNG_partial (eps : K) (ne : Nat) (f : (Nat → K) → Nat → K) (x j : Nat → K) :
    ∃ j', jacNG eps 1 ne f x j = .ok (x, j') ∧ ∀ k, k < ne → unflat 1 j' k 0 = central eps f x k 0 := by
  obtain ⟨j', e, h⟩ := jacNGStep_spec eps 1 ne f 0 x j (by omega)
  refine ⟨fun q => j' q * ((1/2) / eps), ?_, fun k hk => ?_⟩
  · unfold jacNG
    rw [forUpM_cons Nat.one_pos, e]
    rfl
  · unfold unflat central
    dsimp only
    rw [show 1 * k + 0 = k by omega, h k, if_pos (by omega), div_div, mul_one_div]
    simp

/-- The equations `y = 0`, `-x = 0` with weight `w` of the norm and a numerical Jacobian matrix. -/
def turn (eps w : K) : Sys K :=
  { nv := 2, ne := 2, f := fun x => some fun k => if k = 0 then x 1 else -x 0
    jac := fun x => (jacNG eps 2 2 (fun (x : Nat → K) k => if k = 0 then x 1 else -x 0) x (fun _ => 0)).bind fun r => .ok (unflat 2 r.2)
    wn := fun _ => w, we := fun _ => 1, ztol := 0 }

theorem turn_jac (eps w : K) (he : eps ≠ 0) (x : Nat → K) : ∃ j, (turn eps w).jac x = .ok j ∧ j 0 0 = 0 ∧ j 0 1 = -1 ∧ j 1 0 = 1 ∧ j 1 1 = 0 := by
  obtain ⟨j, e, h⟩ := jacNG_square eps 2 (fun (x : Nat → K) k => if k = 0 then x 1 else -x 0) x (fun _ => 0)
  refine ⟨unflat 2 j, ?_, ?_, ?_, ?_, ?_⟩
  · unfold turn
    dsimp only
    rw [e]; rfl
  · rw [h 0 0 (by omega) (by omega)]; simp [central, set1]
  · rw [h 0 1 (by omega) (by omega)]; simp [central, set1]; field_simp; ring
  · rw [h 1 0 (by omega) (by omega)]; simp [central, set1]; field_simp; ring
  · rw [h 1 1 (by omega) (by omega)]; simp [central, set1]

/-- **C138, violated.** The consequence: Newton-Raphson's method without a Jacobian matrix given goes away from the
solution of the linear equations `y = 0`, `-x = 0` in every step, from every point not yet accepted, and reports failure
after any number of iterations, for every positive weight. -/
theorem solveNR_numeric_violated (eps w : K) (he : eps ≠ 0) (hw : 0 < w) (tol : K) (iter : Int) (fuel : Nat) (x : Nat → K) (hx : tol < |x 0|) :
    ∃ R, solveNR (turn eps w) tol iter (fuel+1) x = .ok R ∧ R.ret = -1 ∧ |x 0| ≤ |R.var 0| := by
  have main : ∀ (k i : Nat) (x d : Nat → K) (idx : Nat → Nat), PermOn 2 idx → tol < |x 0| →
      ∃ R, nrLoop (turn eps w) tol (fuel+1) k i x d idx = .ok R ∧ R.ret = -1 ∧ |x 0| ≤ |R.var 0| := by
    intro k
    induction k with
    | zero => intro i x d idx _ _; exact ⟨_, rfl, rfl, le_rfl⟩
    | succ k ih =>
      intro i x d idx hidx hx
      have ht : ¬ isTol 2 (fun k => if k = 0 then x 1 else -x 0) tol = true := by
        rw [isTol_iff]
        intro h
        have := h 1 (by omega)
        simp only [one_ne_zero, if_false, abs_neg] at this
        exact absurd this (not_le.mpr hx)
      obtain ⟨j, hj, h00, h01, h10, h11⟩ := turn_jac eps w he x
      obtain ⟨d', idx', e, hp, hd⟩ := nrDirection_normal (turn eps w) rfl idx hidx (fun _ _ => zero_le_one) (fun _ _ => hw) j (fun k => if k = 0 then x 1 else -x 0) d
      have hd0 : (1 + w) * d' 0 = -x 0 := by
        have := hd 0 (by show 0 < 2; omega)
        simp only [turn, sum_range_succ, sum_range_zero, h00, h01, h10, h11] at this
        simp at this
        linarith
      have hpos : 0 < 1 + w := by linarith
      have hd1 : d' 0 = -x 0 / (1 + w) := by rw [eq_div_iff hpos.ne']; linarith
      have hgrow : |x 0| ≤ |x 0 + -1 * d' 0| := by
        have : x 0 + -1 * d' 0 = x 0 * (1 + 1 / (1 + w)) := by rw [hd1]; ring
        rw [this, abs_mul]
        refine le_mul_of_one_le_right (abs_nonneg _) ?_
        have h1 : 0 < 1 / (1 + w) := by positivity
        rw [abs_of_pos (by linarith)]; linarith
      obtain ⟨R, h1, h2, h3⟩ := ih (i+1) (fun j => x j + -1 * d' j) d' idx' hp (lt_of_lt_of_le hx hgrow)
      refine ⟨R, ?_, h2, hgrow.trans h3⟩
      rw [← h1]
      show (if isTol 2 (fun k => if k = 0 then x 1 else -x 0) tol = true then _ else ((turn eps w).jac x).bind _) = _
      rw [if_neg ht, hj]
      show (nrDirection (turn eps w) idx j (fun k => if k = 0 then x 1 else -x 0) d).bind _ = _
      rw [e]
      show (match step (turn eps w).ztol (turn eps w).f x d' (fuel+1) 1 with
        | .ok xf => _ | .fail => _ | .ub => _) = _
      have hs : step (turn eps w).ztol (turn eps w).f x d' (fuel+1) 1 = .ok (fun i => x i + -1 * d' i, fun k => if k = 0 then x 1 + -1 * d' 1 else -(x 0 + -1 * d' 0)) := by
        unfold step
        rw [if_pos (show (1 : K) > (turn eps w).ztol from one_pos)]
        rfl
      rw [hs]
  exact main _ 0 x _ _ (PermOn.id _) hx

end

/-! ## Descent methods on the squared error -/

/-- **C139.** The gradient handed to the descent methods is the gradient of half the weighted sum of squares: along
every direction the derivative of the latter is the inner product with the former, if `J` is the derivative of the
residual. -/
theorem descent_grad_deriv (nv ne : Nat) (F : (Nat → ℝ) → Nat → ℝ) (J : (Nat → ℝ) → Nat → Nat → ℝ) (we : Nat → ℝ) (scale ztol df cf : ℝ) (x v : Nat → ℝ)
    (hJ : ∀ k, k < ne → HasDerivAt (fun t : ℝ => F (fun i => x i + t * v i) k) (∑ i ∈ range nv, J x k i * v i) 0) :
    (∀ y, (descent nv ne (fun y => some (F y)) J we scale ztol df cf).eval y = some (halfSquares ne we (F y))) ∧
    HasDerivAt (fun t : ℝ => halfSquares ne we (F fun i => x i + t * v i))
      (∑ i ∈ range nv, (descent nv ne (fun y => some (F y)) J we scale ztol df cf).grad x i * v i) 0 := by
  refine ⟨fun y => by simp [descent, sqEval_spec], ?_⟩
  have h0 : (fun i => x i + 0 * v i) = x := by funext i; ring
  have h1 : HasDerivAt (fun t : ℝ => ∑ k ∈ range ne, we k * F (fun i => x i + t * v i) k ^ 2) (∑ k ∈ range ne, we k * (2 * F x k * ∑ i ∈ range nv, J x k i * v i)) 0 := by
    refine HasDerivAt.fun_sum fun k hk => ?_
    have := ((hJ k (mem_range.1 hk)).pow 2).const_mul (we k)
    refine this.congr_deriv ?_
    simp only [h0]
    norm_num
  refine (h1.div_const 2).congr_deriv ?_
  have h2 : ∀ i, i < nv → (descent nv ne (fun y => some (F y)) J we scale ztol df cf).grad x i = ∑ k ∈ range ne, J x k i * (we k * F x k) := by
    intro i hi
    show mulTVec ne nv (J x) (amp ne (some we) (F x)) (fun _ => 0) i = _
    rw [mulTVec_spec, if_pos hi]
    refine sum_congr rfl fun k hk => ?_
    rw [amp_spec, if_pos (mem_range.1 hk)]
    rfl
  have h3 : ∑ i ∈ range nv, (descent nv ne (fun y => some (F y)) J we scale ztol df cf).grad x i * v i = ∑ i ∈ range nv, (∑ k ∈ range ne, J x k i * (we k * F x k)) * v i :=
    sum_congr rfl fun i hi => by rw [h2 i (mem_range.1 hi)]
  rw [h3]
  simp only [sum_mul]
  rw [sum_comm, sum_div]
  refine sum_congr rfl fun k _ => ?_
  rw [mul_sum, mul_sum, sum_div]
  exact sum_congr rfl fun i _ => by ring

example : ∀ k, k < 1 → HasDerivAt (fun t : ℝ => ((fun i : Nat => (3 : ℝ) + t * 2) 0) ^ 2 + (k : ℝ)) (∑ i ∈ range 1, (2 * (3 : ℝ)) * 2) 0 := by
  intro k _
  have := (((hasDerivAt_id (0 : ℝ)).mul_const 2).const_add 3).pow 2 |>.add_const (k : ℝ)
  refine this.congr_deriv ?_
  simp

/-- **C139.** The matrix handed to the descent methods as the Hessian matrix is that of Gauss and Newton: `J^T W J`; where the residual is affine the value, the
gradient and the matrix are the exact expansion of half the weighted sum of squares. -/
theorem descent_hess {K : Type*} [Field K] [LinearOrder K] [IsStrictOrderedRing K] (nv ne : Nat) (F : (Nat → K) → Option (Nat → K)) (J : (Nat → K) → Nat → Nat → K) (we : Nat → K) (scale ztol df cf : K) (x : Nat → K)
    (i j : Nat) (hi : i < nv) (hj : j < nv) : (descent nv ne F J we scale ztol df cf).hess x i j = ∑ k ∈ range ne, we k * J x k i * J x k j :=
  zMatTQuadNC_spec ne nv (J x) (some we) i j hi hj

theorem descent_taylor (nv ne : Nat) (A : Nat → Nat → ℝ) (b we : Nat → ℝ) (scale ztol df cf : ℝ) (x v : Nat → ℝ)
    (P : Prob ℝ) (hP : P = descent nv ne (fun y => some fun k => ∑ i ∈ range nv, A k i * y i - b k) (fun _ => A) we scale ztol df cf) :
    ∃ e e', P.eval x = some e ∧ P.eval (fun i => x i + v i) = some e' ∧
      e' = e + ∑ i ∈ range nv, P.grad x i * v i + (∑ i ∈ range nv, ∑ j ∈ range nv, v i * P.hess x i j * v j) / 2 := by
  subst hP
  obtain ⟨h1, _⟩ := descent_grad_deriv nv ne (fun y k => ∑ i ∈ range nv, A k i * y i - b k) (fun _ => A) we scale ztol df cf x (fun _ => 0) (fun k _ => by
    simp only [mul_zero, add_zero, Finset.sum_const_zero]
    exact hasDerivAt_const _ _)
  refine ⟨_, _, h1 x, h1 _, ?_⟩
  have h2 : ∀ i, i < nv → (descent nv ne (fun y => some fun k => ∑ i ∈ range nv, A k i * y i - b k) (fun _ => A) we scale ztol df cf).grad x i =
      ∑ k ∈ range ne, A k i * (we k * (∑ i ∈ range nv, A k i * x i - b k)) := by
    intro i hi
    show mulTVec ne nv A (amp ne (some we) fun k => ∑ i ∈ range nv, A k i * x i - b k) (fun _ => 0) i = _
    rw [mulTVec_spec, if_pos hi]
    refine sum_congr rfl fun k hk => ?_
    rw [amp_spec, if_pos (mem_range.1 hk)]
    rfl
  have e1 : ∑ i ∈ range nv, (descent nv ne (fun y => some fun k => ∑ i ∈ range nv, A k i * y i - b k) (fun _ => A) we scale ztol df cf).grad x i * v i =
      ∑ k ∈ range ne, we k * (∑ i ∈ range nv, A k i * x i - b k) * ∑ i ∈ range nv, A k i * v i := by
    rw [sum_congr rfl fun i hi => by rw [h2 i (mem_range.1 hi), sum_mul], sum_comm]
    refine sum_congr rfl fun k _ => ?_
    rw [mul_sum]
    exact sum_congr rfl fun i _ => by ring
  have e2 : ∑ i ∈ range nv, ∑ j ∈ range nv, v i * (descent nv ne (fun y => some fun k => ∑ i ∈ range nv, A k i * y i - b k) (fun _ => A) we scale ztol df cf).hess x i j * v j =
      ∑ k ∈ range ne, we k * (∑ i ∈ range nv, A k i * v i) ^ 2 := by
    rw [sum_congr rfl fun i hi => sum_congr rfl fun j hj => by rw [descent_hess nv ne _ _ we scale ztol df cf x i j (mem_range.1 hi) (mem_range.1 hj), mul_sum, sum_mul]]
    rw [sum_congr rfl fun i _ => sum_comm, sum_comm]
    refine sum_congr rfl fun k _ => ?_
    rw [pow_two, sum_mul_sum, mul_sum]
    refine sum_congr rfl fun i _ => ?_
    rw [mul_sum]
    exact sum_congr rfl fun j _ => by ring
  rw [e1, e2]
  unfold halfSquares
  rw [add_assoc, ← sub_eq_iff_eq_add', ← sub_div, ← sum_sub_distrib, sum_div, sum_div, ← sum_add_distrib]
  refine sum_congr rfl fun k _ => ?_
  have : ∑ i ∈ range nv, A k i * (x i + v i) = ∑ i ∈ range nv, A k i * x i + ∑ i ∈ range nv, A k i * v i := by
    rw [← sum_add_distrib]; exact sum_congr rfl fun i _ => by ring
  beta_reduce
  rw [this]
  ring

/-- Two equations in two variables. -/
example : (descent 2 2 (fun y => some fun k => ∑ i ∈ range 2, (k + i : ℚ) * y i - 1) (fun _ k i => (k + i : ℚ)) (fun _ => 2) 1 0 1 1).hess (fun _ => 0) 1 1 = 10 := by
  rw [descent_hess 2 2 _ _ _ 1 0 1 1 _ 1 1 (by omega) (by omega)]
  norm_num [Finset.sum_range_succ]

/-- **C135, violated.** With a descent method success does not mean that the equations hold: `x^2 + 1 = 0` is
"solved" by 0. -/
theorem solveDM_violated :
    (match zOptDMSolve (descent (K := ℚ) 1 1 (fun x => some fun _ => x 0 ^ 2 + 1) (fun x _ _ => 2 * x 0) (fun _ => 1) 10 0 (1 / 10000) (9 / 10)) vecSD
        (stepNoc (descent 1 1 (fun x => some fun _ => x 0 ^ 2 + 1) (fun x _ _ => 2 * x 0) (fun _ => 1) 10 0 (1 / 10000) (9 / 10)) 20) (updateNone 1) (1 / 10 ^ 12) 0 created (fun _ => 0) with
      | .ok R => decide (R.ret = 0 ∧ R.var 0 ^ 2 + 1 = 1) | _ => false) = true := by
  decide +kernel

end Zm.NLE
