import Verif.Model.LEMore
import Verif.Props.LQ
import Verif.Props.LU
import Mathlib.Algebra.Field.Rat
import Mathlib.Algebra.Order.Ring.Rat

/-! # C111–C114: residual iteration, Gauss–Seidel method, Lyapunov equation, multiplication by an inverse from the right -/

set_option linter.unusedSectionVars false

namespace Zm.LE
open Zm Misc Finset
variable {K : Type*} [Field K] [LinearOrder K] [IsStrictOrderedRing K]

/-! ## C111: residual iteration -/

/-- The full rank is returned only if no pivot has been passed over. -/
theorem lu_leading (tol : K) (n : Nat) (M : Nat → Nat → K) (st : LUS K) (h : zMatDecompLU tol n n M = .ok st) : st.r ≤ n ∧ (st.r = n → ∀ t, t < n → st.u t t = 1) := by
  unfold zMatDecompLU at h
  have := forUpM_of_ok (lo := 0) (hi := n) (fun c (t : LUS K) => t.r ≤ c ∧ (t.r = c → ∀ k, k < c → t.u k k = 1)) (Nat.zero_le _)
    (s := { m := M, l := fun _ _ => 0, u := fun _ _ => 0, idx := fun i => i, r := 0 }) ⟨le_refl _, fun _ k hk => by omega⟩
    (by
      intro c t t' _ hc ⟨h1, h2⟩ e
      unfold luStep at e
      by_cases g : t.r < n
      · rw [if_neg (not_not.2 g)] at e
        dsimp only at e
        by_cases g2 : zIsTol (t.m (zMatPivoting n t.m t.idx t.r c t.r) c) tol = true
        · rw [if_pos g2] at e
          cases e
          exact ⟨by dsimp only; omega, fun e => by dsimp only at e; omega⟩
        · rw [if_neg g2, if_neg (by omega)] at e
          cases e
          refine ⟨by dsimp only; omega, fun e k hk => ?_⟩
          dsimp only at e ⊢
          rw [forUp_row t.r (fun i _ => t.m (zMatPivoting n t.m t.idx t.r c t.r) i / t.m (zMatPivoting n t.m t.idx t.r c t.r) c) _
            (fun i => t.m (zMatPivoting n t.m t.idx t.r c t.r) i / t.m (zMatPivoting n t.m t.idx t.r c t.r) c) (fun _ _ _ _ _ => rfl)]
          beta_reduce
          rw [if_neg (by omega)]
          by_cases g3 : k = c
          · rw [show t.r = k by omega, ← g3, set2_same]
          · rw [set2_ne_row _ _ (by omega)]
            exact h2 (by omega) k (by omega)
      · rw [if_pos g] at e
        cases e
        exact ⟨by omega, fun e => by omega⟩) h
  exact this

theorem solve_zero (n : Nat) (A : Nat → Nat → K) (hA : ¬ Singular n A) (e : Nat → K) (h : ∀ i, i < n → ∑ j ∈ range n, A i j * e j = 0) (j : Nat) (hj : j < n) : e j = 0 := by
  by_contra hne
  exact hA ⟨e, ⟨j, hj, hne⟩, h⟩

theorem luriLoop_exact (sqrt : K → K) (n : Nat) (A l u : Nat → Nat → K) (b : Nat → K) (idx : Nat → Nat) (hA : ¬ Singular n A)
    (hs : ∀ r : Nat → K, ∀ ans, ∀ i, i < n → ∑ j ∈ range n, A i j * zLESolveLU n l u r ans idx j = r i) (k : Nat) :
    ∀ (old : Option K) (x : Nat → K), (∀ i, i < n → ∑ j ∈ range n, A i j * x j = b i) →
      ∀ i, i < n → ∑ j ∈ range n, A i j * (luriLoop sqrt n A l u b idx k old x).1 j = b i := by
  induction k with
  | zero => intro old x hx; exact hx
  | succ k ih =>
    intro old x hx
    unfold luriLoop
    dsimp only
    by_cases g : luriStop old (sqrt (inner n (zLEResidual n n A b x) (zLEResidual n n A b x))) = true
    · rw [if_pos g]; exact hx
    · rw [if_neg g]
      apply ih
      have hz : ∀ j, j < n → zLESolveLU n l u (zLEResidual n n A b x) (fun _ => 0) idx j = 0 :=
        solve_zero n A hA _ fun i hi => by
          rw [hs _ _ i hi, zLEResidual_spec _ _ _ _ _ _ hi]
          unfold Ax
          rw [hx i hi, sub_self]
      intro i hi
      rw [← hx i hi]
      exact sum_congr rfl fun j hj => by rw [addTo_spec, if_pos (mem_range.1 hj), hz j (mem_range.1 hj), add_zero]

/-- The norm of the residual of a solution. -/
theorem residual_norm (sqrt : K → K) (hsq : SqrtOk sqrt) (n : Nat) (A : Nat → Nat → K) (b x : Nat → K) (hx : ∀ i, i < n → ∑ j ∈ range n, A i j * x j = b i) :
    sqrt (inner n (zLEResidual n n A b x) (zLEResidual n n A b x)) = 0 := by
  rw [inner_spec, sum_eq_zero fun i hi => by
    rw [zLEResidual_spec _ _ _ _ _ _ (mem_range.1 hi)]
    unfold Ax
    rw [hx i (mem_range.1 hi), sub_self, zero_mul]]
  exact mul_self_eq_zero.1 (hsq 0 (le_refl _)).2

/-- The norm of the residual. -/
def resNorm (sqrt : K → K) (n : Nat) (A : Nat → Nat → K) (b x : Nat → K) : K := sqrt (inner n (zLEResidual n n A b x) (zLEResidual n n A b x))

/-- The `k`-th correction of `x` by the solution of the residual with the factors. -/
def corrected (n : Nat) (A l u : Nat → Nat → K) (b : Nat → K) (idx : Nat → Nat) (x : Nat → K) : Nat → Nat → K
  | 0 => x
  | k+1 => addTo n (corrected n A l u b idx x k) (zLESolveLU n l u (zLEResidual n n A b (corrected n A l u b idx x k)) (fun _ => 0) idx)

theorem luriLoop_residuals (sqrt : K → K) (n : Nat) (A l u : Nat → Nat → K) (b : Nat → K) (idx : Nat → Nat) (x : Nat → K) (k : Nat) :
    ∀ t, (∀ i, i + 1 < t → resNorm sqrt n A b (corrected n A l u b idx x (i+1)) < resNorm sqrt n A b (corrected n A l u b idx x i)) →
    ∃ c, luriLoop sqrt n A l u b idx k (if t = 0 then none else some (resNorm sqrt n A b (corrected n A l u b idx x (t-1)))) (corrected n A l u b idx x t) =
        (corrected n A l u b idx x c, decide (c < t + k)) ∧ c ≤ t + k ∧ t ≤ c ∧
      (∀ i, i + 1 < c → resNorm sqrt n A b (corrected n A l u b idx x (i+1)) < resNorm sqrt n A b (corrected n A l u b idx x i)) ∧
      (c < t + k → 1 ≤ c ∧ resNorm sqrt n A b (corrected n A l u b idx x (c-1)) ≤ resNorm sqrt n A b (corrected n A l u b idx x c)) := by
  induction k with
  | zero =>
    intro t h
    exact ⟨t, by simp [luriLoop], by omega, le_refl _, h, fun h => by omega⟩
  | succ k ih =>
    intro t h
    unfold luriLoop
    dsimp only
    rw [show sqrt (inner n (zLEResidual n n A b (corrected n A l u b idx x t)) (zLEResidual n n A b (corrected n A l u b idx x t))) = resNorm sqrt n A b (corrected n A l u b idx x t) from rfl]
    by_cases g : luriStop (if t = 0 then none else some (resNorm sqrt n A b (corrected n A l u b idx x (t-1)))) (resNorm sqrt n A b (corrected n A l u b idx x t)) = true
    · rw [if_pos g]
      refine ⟨t, by simp, by omega, le_refl _, h, fun _ => ?_⟩
      by_cases h0 : t = 0
      · rw [if_pos h0] at g; simp [luriStop] at g
      · rw [if_neg h0] at g
        exact ⟨by omega, of_decide_eq_true g⟩
    · rw [if_neg g]
      obtain ⟨c, e, h1, h2, h3, h4⟩ := ih (t+1) (by
        intro i hi
        by_cases hit : i + 1 < t
        · exact h i hit
        · have : t = i + 1 := by omega
          subst this
          rw [if_neg (by omega)] at g
          exact not_le.1 fun hle => g (decide_eq_true hle))
      rw [if_neg (by omega)] at e
      refine ⟨c, ?_, by omega, by omega, h3, fun h => h4 (by omega)⟩
      rw [show t + (k + 1) = t + 1 + k by omega]
      exact e

/-- C111, `zLESolveLURI` with any tolerance, hence with factors that need not be exact: the answer is the solution with the factors after `c`
corrections; the norms of the residuals decrease strictly up to the last correction but one, and the loop ends by itself only after a correction
that did not make the residual smaller. -/
theorem zLESolveLURI_residuals (tol : K) (sqrt : K → K) (limit n : Nat) (A : Nat → Nat → K) (b ans x : Nat → K) (done : Bool) (h : zLESolveLURI tol sqrt limit n A b ans = .ok (x, done)) :
    ∃ st c, zMatDecompLU tol n n A = .ok st ∧ n ≤ st.r ∧ x = corrected n A st.l st.u b st.idx (zLESolveLU n st.l st.u b ans st.idx) c ∧ c ≤ limit ∧ done = decide (c < limit) ∧
      (∀ i, i + 1 < c → resNorm sqrt n A b (corrected n A st.l st.u b st.idx (zLESolveLU n st.l st.u b ans st.idx) (i+1)) <
        resNorm sqrt n A b (corrected n A st.l st.u b st.idx (zLESolveLU n st.l st.u b ans st.idx) i)) ∧
      (done = true → 1 ≤ c ∧ resNorm sqrt n A b (corrected n A st.l st.u b st.idx (zLESolveLU n st.l st.u b ans st.idx) (c-1)) ≤ resNorm sqrt n A b x) := by
  unfold zLESolveLURI at h
  cases e : zMatDecompLU tol n n A with
  | fail => rw [e] at h; cases h
  | ub => rw [e] at h; cases h
  | ok st =>
    rw [e] at h
    dsimp only [Res.bind] at h
    split_ifs at h with hr
    obtain ⟨c, e1, h1, h2, h3, h4⟩ := luriLoop_residuals sqrt n A st.l st.u b st.idx (zLESolveLU n st.l st.u b ans st.idx) limit 0 (fun i hi => by omega)
    rw [if_pos rfl, zero_add] at e1
    rw [zero_add] at h1 h4
    have e2 := Res.ok.inj h
    rw [show zLESolveLU n st.l st.u b ans st.idx = corrected n A st.l st.u b st.idx (zLESolveLU n st.l st.u b ans st.idx) 0 from rfl, e1] at e2
    cases e2
    exact ⟨st, c, rfl, by omega, rfl, h1, rfl, h3, fun hd => h4 (of_decide_eq_true hd)⟩

/-- C111, `zLESolveLURI`: a regular matrix gives the exact solution, whatever the limit of iterations is, and the iteration ends by itself
if the limit is two or more; failure is reported for every singular matrix. -/
theorem zLESolveLURI_correct (sqrt : K → K) (hsq : SqrtOk sqrt) (limit n : Nat) (A : Nat → Nat → K) (b ans : Nat → K) :
    (¬ Singular n A → ∃ x done, zLESolveLURI 0 sqrt limit n A b ans = .ok (x, done) ∧ (∀ i, i < n → ∑ j ∈ range n, A i j * x j = b i) ∧ (2 ≤ limit → done = true)) ∧
    (Singular n A → zLESolveLURI 0 sqrt limit n A b ans = .fail) := by
  constructor
  · intro hA
    obtain ⟨st, e, hr, p, h1, h2, h3, h4, h5⟩ := zMatDecompLU_nonsingular n A hA
    have hs : ∀ r : Nat → K, ∀ ans, ∀ i, i < n → ∑ j ∈ range n, A i j * zLESolveLU n st.l st.u r ans st.idx j = r i :=
      fun r ans => zLESolveLU_correct n A st.l st.u r ans st.idx p h1 h2 h3 h4 h5
    unfold zLESolveLURI
    rw [e]
    dsimp only [Res.bind]
    rw [if_neg (by omega)]
    refine ⟨_, _, rfl, luriLoop_exact sqrt n A st.l st.u b st.idx hA hs limit none _ (hs b ans), fun hl => ?_⟩
    obtain ⟨k, rfl⟩ : ∃ k, limit = k + 2 := ⟨limit - 2, by omega⟩
    have hx1 := hs b ans
    generalize zLESolveLU n st.l st.u b ans st.idx = x at hx1 ⊢
    unfold luriLoop
    dsimp only
    rw [if_neg (by simp [luriStop])]
    unfold luriLoop
    dsimp only
    have hx2 := luriLoop_exact sqrt n A st.l st.u b st.idx hA hs 1 none x hx1
    have hu : (luriLoop sqrt n A st.l st.u b st.idx 1 none x).1 = addTo n x (zLESolveLU n st.l st.u (zLEResidual n n A b x) (fun _ => 0) st.idx) := by
      unfold luriLoop
      simp [luriLoop, luriStop]
    rw [hu] at hx2
    rw [if_pos (show luriStop (some (sqrt (inner n (zLEResidual n n A b x) (zLEResidual n n A b x)))) _ = true from
      (by unfold luriStop; dsimp only; rw [residual_norm sqrt hsq n A b x hx1, residual_norm sqrt hsq n A b _ hx2]; exact decide_eq_true (le_refl _)))]
  · intro hA
    obtain ⟨st, e⟩ := zMatDecompLU_ok 0 n n (le_refl _) A
    obtain ⟨g1, g2⟩ := lu_leading 0 n A st e
    unfold zLESolveLURI
    rw [e]
    dsimp only [Res.bind]
    refine if_pos ?_
    by_contra hge
    have hr : st.r = n := by omega
    obtain ⟨p, -, -, -, h1, -, h3, h4, h5⟩ := zMatDecompLU_correct_partial 0 (le_refl _) n n A st e (by rw [hr]; exact g2 hr)
    rw [hr] at h1 h3 h4 h5
    -- a singular matrix has a right-hand side without a solution; here every right-hand side has one
    have hs : ∀ r : Nat → K, ∀ i, i < n → ∑ j ∈ range n, A i j * zLESolveLU n st.l st.u r (fun _ => 0) st.idx j = r i :=
      fun r => zLESolveLU_correct n A st.l st.u r _ st.idx p (fun i j hi hj => h1 i j hi hj hj) (fun i hi => abs_pos.1 (h4 i hi)) (fun i j hij hj => h3 i j (by omega) (Or.inl hij))
        (g2 hr) (fun i j hij hi => h5 i j (Or.inl hij))
    let B : Matrix (Fin n) (Fin n) K := fun i j => zLESolveLU n st.l st.u (fun k => if k = j then 1 else 0) (fun _ => 0) st.idx i
    let M : Matrix (Fin n) (Fin n) K := fun i j => A i j
    have hMB : M * B = 1 := by
      ext i j
      rw [Matrix.mul_apply, Matrix.one_apply]
      have := hs (fun k => if k = j then 1 else 0) i i.2
      rw [sum_range] at this
      exact this.trans (if_congr Fin.ext_iff.symm rfl rfl)
    have hBM := mul_eq_one_comm.1 hMB
    obtain ⟨z, ⟨j, hj, hz⟩, h0⟩ := hA
    apply hz
    have e1 : B.mulVec (M.mulVec fun k : Fin n => z k) = fun k : Fin n => z k := by
      rw [Matrix.mulVec_mulVec, hBM, Matrix.one_mulVec]
    have e2 : (M.mulVec fun k : Fin n => z k) = 0 := by
      ext i
      have := h0 i i.2
      rw [sum_range] at this
      exact this
    rw [e2, Matrix.mulVec_zero] at e1
    exact (congrFun e1 ⟨j, hj⟩).symm

/-- A regular and a singular matrix. -/
example : ¬ Singular 1 (fun _ _ => (2 : ℚ)) ∧ Singular 1 (fun _ _ => (0 : ℚ)) := by
  constructor
  · rintro ⟨z, ⟨j, hj, hz⟩, h⟩
    have := h 0 (by omega)
    rw [sum_range_one] at this
    have hj0 : j = 0 := by omega
    rw [hj0] at hz
    exact hz (by linarith)
  · exact ⟨fun _ => 1, ⟨0, by omega, one_ne_zero⟩, fun i _ => by simp⟩

/-! ## C112: Gauss–Seidel method -/

/-- The order of the equations is a permutation. -/
theorem gsIdx_perm (n : Nat) (a : Nat → Nat → K) : PermOn n (gsIdx n a) :=
  forUp_inv (lo := 0) (hi := n) (fun i idx => zMatPivoting n a idx i i) (fun i => i) (fun _ idx => PermOn n idx) (Nat.zero_le _) (PermOn.id n)
    (fun i t _ hi h => (zMatPivoting_props n a t i i hi h).1)

theorem gs_offdiag (n j : Nat) (hj : j < n) (c v : Nat → K) (b : K) : forUp 0 n (fun k x => if k ≠ j then x - c k * v k else x) b = b - ∑ k ∈ range n, c k * v k + c j * v j := by
  have h := forUp_inv (lo := 0) (hi := n) (fun k x => if k ≠ j then x - c k * v k else x) b
    (fun r x => x = b - ∑ k ∈ range r, c k * v k + if j < r then c j * v j else 0) (Nat.zero_le _) (by simp)
    (by
      intro k x _ hk e
      beta_reduce
      rw [sum_range_succ]
      by_cases g : k = j
      · subst g
        rw [if_neg (by simp), e, if_neg (by omega), if_pos (by omega)]; ring
      · rw [if_pos g, e]
        by_cases g2 : j < k
        · rw [if_pos g2, if_pos (by omega)]; ring
        · rw [if_neg g2, if_neg (by omega)]; ring)
  rw [h, if_pos hj]

/-- One sweep: the new vector `v` from the old vector `w`. -/
theorem gsSweep_spec (tol : K) (n : Nat) (a : Nat → Nat → K) (b : Nat → K) (idx : Nat → Nat) (w : Nat → K) (v : Nat → K) (cnt : Nat)
    (h : gsSweep tol n a b idx w = .ok (v, cnt)) : (∀ t, t < n → ∑ k ∈ range n, a (idx t) k * (if k ≤ t then v k else w k) = b (idx t)) ∧
      (cnt = n → ∀ t, t < n → |v t - w t| ≤ tol) := by
  have hi := forUpM_of_ok (lo := 0) (hi := n) (fun j (s : (Nat → K) × Nat) => (∀ k, j ≤ k → s.1 k = w k) ∧
      (∀ t, t < j → ∑ k ∈ range n, a (idx t) k * (if k ≤ t then s.1 k else w k) = b (idx t)) ∧ s.2 ≤ j ∧ (s.2 = j → ∀ t, t < j → |s.1 t - w t| ≤ tol)) (Nat.zero_le _)
    ⟨fun _ _ => rfl, fun t ht => by omega, le_refl _, fun _ t ht => by omega⟩
    (by
      rintro j ⟨x, c⟩ t' _ hj ⟨h1, h2, h3, h4⟩ e
      unfold gsRow at e
      dsimp only at e h1 h2 h3 h4
      by_cases g : a (idx j) j = 0
      · rw [if_pos g] at e; cases e
      · rw [if_neg g, gs_offdiag n j hj (a (idx j)) x (b (idx j))] at e
        generalize hy : (b (idx j) - ∑ k ∈ range n, a (idx j) k * x k + a (idx j) j * x j) / a (idx j) j = y at e
        cases e
        have hy' : a (idx j) j * y = b (idx j) - ∑ k ∈ range n, a (idx j) k * x k + a (idx j) j * x j := by rw [← hy]; field_simp
        refine ⟨fun k hk => ?_, fun t ht => ?_, ?_, fun hc t ht => ?_⟩ <;> dsimp only at *
        · rw [set1_ne _ _ (by omega), h1 k (by omega)]
        · by_cases g2 : t = j
          · subst g2
            have e1 : ∀ k, k ∈ range n → a (idx t) k * (if k ≤ t then set1 x t y k else w k) = a (idx t) k * x k + if k = t then a (idx t) t * (y - x t) else 0 := by
              intro k _
              by_cases g3 : k = t
              · subst g3; rw [if_pos (le_refl _), set1_same, if_pos rfl]; ring
              · rw [set1_ne _ _ g3, if_neg g3, add_zero]
                by_cases g4 : k ≤ t
                · rw [if_pos g4]
                · rw [if_neg g4, h1 k (by omega)]
            rw [sum_congr rfl e1, sum_add_distrib, sum_ite_eq', if_pos (mem_range.2 hj), mul_sub, hy']
            ring
          · rw [← h2 t (by omega)]
            refine sum_congr rfl fun k _ => ?_
            by_cases g3 : k ≤ t
            · rw [if_pos g3, if_pos g3, set1_ne _ _ (by omega)]
            · rw [if_neg g3, if_neg g3]
        · split <;> omega
        · by_cases g3 : zIsTol (y - x j) tol = true
          · rw [if_pos g3] at hc
            by_cases g2 : t = j
            · subst g2
              rw [set1_same, ← h1 t (le_refl _)]
              simpa [zIsTol] using g3
            · rw [set1_ne _ _ g2]
              exact h4 (by omega) t (by omega)
          · rw [if_neg g3] at hc; omega) h
  exact ⟨hi.2.1, hi.2.2.2⟩

theorem gsLoop_last (tol : K) (n : Nat) (a : Nat → Nat → K) (b : Nat → K) (idx : Nat → Nat) (k : Nat) :
    ∀ (w x : Nat → K), gsLoop tol n a b idx k w = .ok (x, true) → ∃ w', gsSweep tol n a b idx w' = .ok (x, n) := by
  induction k with
  | zero =>
    intro w x h
    unfold gsLoop at h
    match e : gsSweep tol n a b idx w, h with
    | .ok (v, c), h =>
      simp only [Res.bind, Res.ok.injEq, Prod.mk.injEq, decide_eq_true_eq] at h
      exact ⟨w, by rw [e, h.1, h.2]⟩
  | succ k ih =>
    intro w x h
    unfold gsLoop at h
    match e : gsSweep tol n a b idx w, h with
    | .ok (v, c), h =>
      dsimp only [Res.bind] at h
      by_cases g : c = n
      · rw [if_pos g] at h
        simp only [Res.ok.injEq, Prod.mk.injEq, and_true] at h
        exact ⟨w, by rw [e, h, g]⟩
      · rw [if_neg g] at h
        exact ih v x h

/-- C112, `zLESolveGaussSeidel`: if the iteration has ended before the limit, every equation is satisfied up to the tolerance times the sum of the magnitudes of its
coefficients. -/
theorem zLESolveGaussSeidel_residual (tol : K) (limit n : Nat) (a : Nat → Nat → K) (b w x : Nat → K) (h : zLESolveGaussSeidel tol limit n a b w = .ok (x, true)) (i : Nat) (hi : i < n) :
    |b i - ∑ k ∈ range n, a i k * x k| ≤ tol * ∑ k ∈ range n, |a i k| := by
  obtain ⟨w', hw⟩ := gsLoop_last tol n a b (gsIdx n a) limit w x h
  obtain ⟨h1, h2⟩ := gsSweep_spec tol n a b (gsIdx n a) w' x n hw
  have h2 := h2 rfl
  obtain ⟨t, ht, e⟩ := (gsIdx_perm n a).surj hi
  have h3 := h1 t ht
  rw [e] at h3
  rw [← h3, ← sum_sub_distrib, mul_sum]
  refine (abs_sum_le_sum_abs _ _).trans (sum_le_sum fun k hk => ?_)
  have hk := h2 k (mem_range.1 hk)
  by_cases g : k ≤ t
  · rw [if_pos g, sub_self, abs_zero]
    exact mul_nonneg ((abs_nonneg _).trans hk) (abs_nonneg _)
  · rw [if_neg g, ← mul_sub, abs_mul, mul_comm, abs_sub_comm]
    exact mul_le_mul_of_nonneg_right hk (abs_nonneg _)

/-- C112 with the tolerance zero: the answer is a solution. -/
theorem zLESolveGaussSeidel_exact (limit n : Nat) (a : Nat → Nat → K) (b w x : Nat → K) (h : zLESolveGaussSeidel 0 limit n a b w = .ok (x, true)) (i : Nat) (hi : i < n) :
    ∑ k ∈ range n, a i k * x k = b i := by
  have := zLESolveGaussSeidel_residual 0 limit n a b w x h i hi
  rw [zero_mul] at this
  exact (sub_eq_zero.1 (abs_nonpos_iff.1 this)).symm

/-- The matrix ((1, 1), (1, 0)). -/
def gsM0 : Nat → Nat → ℚ := fun i j => if i = 1 ∧ j = 1 then 0 else 1

/-- The matrix ((1, -1), (1, 1)). -/
def gsM1 : Nat → Nat → ℚ := fun i j => if i = 0 ∧ j = 1 then -1 else 1

/-- C112 is not met by every regular matrix: the order of the equations is chosen by the magnitudes of the coefficients without elimination, and
for ((1, 1), (1, 0)) it leaves a zero on the diagonal, by which the method divides. -/
theorem zLESolveGaussSeidel_diag_violated (limit : Nat) (b w : Nat → ℚ) :
    zLESolveGaussSeidel (K := ℚ) 0 limit 2 gsM0 b w = .ub ∧ ¬ Singular 2 gsM0 := by
  have hidx : gsIdx (K := ℚ) 2 gsM0 1 = 1 := by decide +kernel
  have hidx0 : gsIdx (K := ℚ) 2 gsM0 0 = 0 := by decide +kernel
  constructor
  · have hs : gsSweep (K := ℚ) 0 2 gsM0 b (gsIdx 2 gsM0) w = .ub := by
      unfold gsSweep
      rw [forUpM_cons (by omega)]
      unfold gsRow
      dsimp only
      rw [hidx0, if_neg (by norm_num [gsM0])]
      dsimp only [Res.bind]
      rw [forUpM_cons (by omega)]
      dsimp only
      rw [hidx]
      rw [if_pos (show gsM0 1 1 = 0 by norm_num [gsM0])]
      rfl
    unfold zLESolveGaussSeidel
    cases limit <;> unfold gsLoop <;> rw [hs] <;> rfl
  · rintro ⟨z, ⟨j, hj, hz⟩, h⟩
    have h0 := h 0 (by omega)
    have h1 := h 1 (by omega)
    norm_num [sum_range_succ, gsM0] at h0 h1
    have : j = 0 ∨ j = 1 := by omega
    rcases this with rfl | rfl
    · exact hz (by linarith)
    · exact hz (by linarith)

/-- The sweep for the matrix ((1, -1), (1, 1)) and the right-hand side (0, 2). -/
theorem gs_oscillate (w : Nat → ℚ) : ∃ v, gsSweep (K := ℚ) 0 2 gsM1 (fun i => if i = 0 then 0 else 2) (fun i => i) w = .ok (v, if |w 1 - w 0| ≤ 0 then (if |2 - w 1 - w 1| ≤ 0 then 2 else 1) else if |2 - w 1 - w 1| ≤ 0 then 1 else 0) ∧ v 0 = w 1 ∧ v 1 = 2 - w 1 := by
  refine ⟨set1 (set1 w 0 (w 1)) 1 (2 - w 1), ?_, by simp [set1], by simp [set1]⟩
  unfold gsSweep
  rw [forUpM_cons (by omega), gsRow]
  simp [forUp, forN, Res.bind, gsM1]
  rw [forUpM_cons (by omega), gsRow]
  simp [forUp, forN, Res.bind, set1, gsM1]
  rw [forUpM_nil (by omega)]
  simp only [zIsTol]
  congr 2
  simp
  split_ifs <;> rfl

/-- C112: the limit ends an iteration that does not converge, and the answer is returned all the same: for the regular matrix ((1, -1), (1, 1)), the right-hand side (0, 2)
and the initial value 0, every number of iterations gives an answer that is not the solution (1, 1). -/
theorem zLESolveGaussSeidel_limit_violated (limit : Nat) :
    ∃ x, zLESolveGaussSeidel (K := ℚ) 0 limit 2 gsM1 (fun i => if i = 0 then 0 else 2) (fun _ => 0) = .ok (x, false) ∧
      ∃ i, i < 2 ∧ ∑ k ∈ range 2, gsM1 i k * x k ≠ if i = 0 then 0 else 2 := by
  have hidx : ∀ i, i < 2 → gsIdx (K := ℚ) 2 gsM1 i = i := by decide +kernel
  have hsweep : ∀ w, gsSweep (K := ℚ) 0 2 gsM1 (fun i => if i = 0 then 0 else 2) (gsIdx 2 gsM1) w =
      gsSweep (K := ℚ) 0 2 gsM1 (fun i => if i = 0 then 0 else 2) (fun i => i) w := by
    intro w
    unfold gsSweep
    rw [forUpM_cons (by omega), forUpM_cons (by omega)]
    unfold gsRow
    dsimp only
    rw [hidx 0 (by omega)]
    congr 1
  have key : ∀ k, ∀ w : Nat → ℚ, (w 1 = 0 ∨ w 1 = 2) → ∃ x, gsLoop (K := ℚ) 0 2 gsM1 (fun i => if i = 0 then 0 else 2)
      (gsIdx 2 gsM1) k w = .ok (x, false) ∧ (x 0 = 0 ∧ x 1 = 2 ∨ x 0 = 2 ∧ x 1 = 0) := by
    intro k
    induction k with
    | zero =>
      intro w hw
      obtain ⟨v, e, h0, h1⟩ := gs_oscillate w
      unfold gsLoop
      rw [hsweep, e]
      refine ⟨v, ?_, ?_⟩
      · rcases hw with hw | hw <;> rw [hw] <;> norm_num [Res.bind] <;> split_ifs <;> simp
      · rcases hw with hw | hw <;> rw [hw] at h0 h1 <;> norm_num at h1 <;> simp [h0, h1]
    | succ k ih =>
      intro w hw
      obtain ⟨v, e, h0, h1⟩ := gs_oscillate w
      unfold gsLoop
      rw [hsweep, e]
      dsimp only [Res.bind]
      rw [if_neg (by rcases hw with hw | hw <;> rw [hw] <;> norm_num <;> split_ifs <;> simp)]
      exact ih v (by rcases hw with hw | hw <;> rw [hw] at h1 <;> norm_num at h1 <;> simp [h1])
  obtain ⟨x, e, hx⟩ := key limit (fun _ => 0) (Or.inl rfl)
  refine ⟨x, e, 0, by omega, ?_⟩
  rcases hx with ⟨h0, h1⟩ | ⟨h0, h1⟩ <;> norm_num [sum_range_succ, h0, h1, gsM1]

/-- The matrix ((2, 0), (1, 4)) is solved in two sweeps. -/
example : (match zLESolveGaussSeidel (K := ℚ) 0 10 2 (fun i j => if i = 0 then (if j = 0 then 2 else 0) else if j = 0 then 1 else 4) (fun i => if i = 0 then 2 else 9) (fun _ => 0) with
    | .ok (x, d) => decide (x 0 = 1 ∧ x 1 = 2 ∧ d = true)
    | _ => false) = true := by decide +kernel

end Zm.LE
