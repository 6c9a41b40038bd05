import Verif.Props.LQ
import Verif.Props.LU
import Mathlib.LinearAlgebra.Matrix.Rank

/-! # C102-C104: Moore-Penrose solutions, null-space projector and rank -/

set_option linter.unusedSectionVars false

namespace Zm.LE
open Zm Misc Finset
variable {K : Type*} [Field K] [LinearOrder K] [IsStrictOrderedRing K]

/-! ## Specification -/

/-- The generalised solution: no vector has a smaller weighted error, and of the vectors with the same error every other one is farther from `ref` in the norm with the weights `1/wn`. -/
structure IsMP (rows cols : Nat) (A : Nat → Nat → K) (b : Nat → K) (wn we : Option (Nat → K)) (ref x : Nat → K) : Prop where
  least : ∀ z : Nat → K, sqErr rows cols A b (wt we) x ≤ sqErr rows cols A b (wt we) z
  short : ∀ z : Nat → K, sqErr rows cols A b (wt we) z = sqErr rows cols A b (wt we) x → (∃ j, j < cols ∧ z j ≠ x j) →
    sqDist cols (fun j => 1 / wt wn j) ref x < sqDist cols (fun j => 1 / wt wn j) ref z

/-! ## The two halves -/

theorem orth_indep (r n : Nat) (q : Nat → Nat → K) (h : Orthonormal r n q) : ¬ RowsDependent r n q := by
  rintro ⟨z, ⟨i, hi, hz⟩, h0⟩
  apply hz
  have h1 : ∑ k ∈ range n, (∑ j ∈ range r, z j * q j k) * q i k = z i := by
    have e : ∑ k ∈ range n, (∑ j ∈ range r, z j * q j k) * q i k = ∑ j ∈ range r, z j * dot n (q j) (q i) := by
      unfold dot
      simp only [sum_mul, mul_sum]
      rw [sum_comm]
      exact sum_congr rfl fun _ _ => sum_congr rfl fun _ _ => by ring
    rw [e, sum_congr rfl (fun j hj => by rw [h j i (mem_range.1 hj) hi])]
    simp [hi]
  rw [← h1]
  exact sum_eq_zero fun k hk => by rw [h0 k (mem_range.1 hk), zero_mul]

/-- `_zLESolveMP_L`: the unique least-squares solution with the triangular matrix. -/
theorem solveMP_L_spec (tol : K) (rows cols : Nat) (A l q : Nat → Nat → K) (r : Nat) (h : IsLQ tol rows cols A l q r) (b : Nat → K) (we : Option (Nat → K)) (hwe : ∀ k, k < rows → 0 < wt we k) :
    PermOn r (solveMP_L 0 rows r l b we).2 ∧
    ∀ u : Nat → K, (∃ j, j < r ∧ u j ≠ (solveMP_L 0 rows r l b we).1 j) → sqErr rows r l b (wt we) (solveMP_L 0 rows r l b we).1 < sqErr rows r l b (wt we) u := by
  have hne : ∀ v u : Nat → K, (∃ j, j < r ∧ u j ≠ v j) → 0 < ∑ k ∈ range rows, wt we k * (Ax r l (fun j => u j - v j) k) ^ 2 := by
    rintro v u ⟨j, hj, hu⟩
    refine lt_of_gap rows (wt we) _ hwe ?_
    by_contra hc
    push Not at hc
    exact h.indep ⟨fun j => u j - v j, ⟨j, hj, sub_ne_zero.2 hu⟩, hc⟩
  unfold solveMP_L
  by_cases e : rows = r
  · rw [if_pos e]
    refine ⟨PermOn.id _, fun u hu => ?_⟩
    have hs := zLESolveL_correct r l b (fun _ => 0) (fun i => i) (fun i hi => (h.full e.symm i (by omega)).ne') (fun i j hij _ => h.lower i j hij)
    dsimp only at hu ⊢
    have g := hne _ u hu
    generalize zLESolveL r l b (fun _ => 0) (fun i => i) = v at hs hu g ⊢
    have h1 : ∀ z : Nat → K, sqErr rows r l b (wt we) z = ∑ k ∈ range rows, wt we k * (Ax r l (fun j => z j - v j) k) ^ 2 := by
      intro z
      unfold sqErr
      refine sum_congr rfl fun k hk => ?_
      rw [Ax_sub, ← hs k (by have := mem_range.1 hk; omega)]
      rfl
    rw [h1 u, h1 v]
    refine lt_of_eq_of_lt ?_ g
    simp [Ax]
  · rw [if_neg e]
    rcases zLESolveErrorMinDST_correct rows r (fun i => i) (PermOn.id _) l b we hwe (fun _ => 0) with ⟨x, idx', e1, hp, hx⟩ | ⟨-, hd⟩
    · rw [e1]
      refine ⟨hp, fun u hu => ?_⟩
      have h1 := cost_expand rows r l b (wt we) (fun _ => 0) (fun _ => 0) x hx u
      have h2 : ∀ y : Nat → K, sqDist r (fun _ => 0) (fun _ => 0) y = 0 := fun y => by simp [sqDist]
      rw [h2, h2] at h1
      simp only [zero_mul, sum_const_zero] at h1
      have h3 := hne x u hu
      dsimp only
      linarith
    · exact absurd hd h.indep

/-- The second half of `zLESolveMP_LQ_DST`: the shortest vector which the orthonormal rows send to `v`. -/
theorem solveMP_R_spec (cols r : Nat) (q : Nat → Nat → K) (h : Orthonormal r cols q) (v : Nat → K) (idx : Nat → Nat) (hidx : PermOn r idx) (wn : Option (Nat → K))
    (hwn : ∀ k, k < cols → 0 < wt wn k) (ans : Nat → K) : Nearest r cols q v wn (fun _ => 0) (solveMP_R 0 cols r q v idx wn ans) := by
  unfold solveMP_R
  by_cases e : r = cols
  · rw [if_pos e]
    subst e
    have hx : ∀ k, k < r → mulTVec r r q v ans k = ∑ j ∈ range r, v j * q j k := by
      intro k hk
      rw [mulTVec_spec, if_pos hk]
      exact sum_congr rfl fun j _ => mul_comm _ _
    refine ⟨fun i hi => ?_, fun z hz => ?_⟩
    · rw [Ax_congr _ _ _ _ hx]
      have e : Ax r q (fun k => ∑ j ∈ range r, v j * q j k) i = ∑ j ∈ range r, v j * dot r (q i) (q j) := by
        unfold Ax dot
        simp only [mul_sum]
        rw [sum_comm]
        exact sum_congr rfl fun _ _ => sum_congr rfl fun _ _ => by ring
      rw [e, sum_congr rfl (fun j hj => by rw [h i j hi (mem_range.1 hj)])]
      simp [hi]
    · rintro ⟨j, hj, hne⟩
      exfalso
      apply hne
      rw [hx j hj, complete r q h z j hj]
      refine sum_congr rfl fun i hi => ?_
      rw [← hz i (mem_range.1 hi), dot_comm]
      rfl
  · rw [if_neg e]
    rcases zLESolveNormMinDST_correct r cols idx hidx q v wn hwn ans with ⟨x, idx', e1, hx⟩ | ⟨-, hd⟩
    · rw [e1]; exact hx
    · exact absurd hd (orth_indep r cols q h)

theorem Ax_prod (rows cols r : Nat) (A l q : Nat → Nat → K) (h : ∀ i k, i < rows → k < cols → A i k = ∑ j ∈ range r, l i j * q j k) (z : Nat → K) (i : Nat) (hi : i < rows) :
    Ax cols A z i = Ax r l (Ax cols q z) i := by
  unfold Ax
  simp only [mul_sum]
  rw [sum_comm]
  refine sum_congr rfl fun k hk => ?_
  rw [h i k hi (mem_range.1 hk), sum_mul]
  exact sum_congr rfl fun j _ => by ring

theorem sqErr_prod (rows cols r : Nat) (A l q : Nat → Nat → K) (h : ∀ i k, i < rows → k < cols → A i k = ∑ j ∈ range r, l i j * q j k) (b we z : Nat → K) :
    sqErr rows cols A b we z = sqErr rows r l b we (Ax cols q z) :=
  sum_congr rfl fun k hk => by rw [Ax_prod rows cols r A l q h z k (mem_range.1 hk)]

theorem sqErr_congr (rows cols : Nat) (A : Nat → Nat → K) (b we x y : Nat → K) (h : ∀ j, j < cols → x j = y j) : sqErr rows cols A b we x = sqErr rows cols A b we y :=
  sum_congr rfl fun k _ => by rw [Ax_congr cols A x y h]

/-! ## The solvers -/

/-- C102, `zLESolveMP`: for every matrix that is not zero and positive weights, the generalised solution (with the weights `1/wn`). -/
theorem zLESolveMP_spec_partial (sqrt : K → K) (hsq : SqrtOk sqrt) (rows cols : Nat) (A : Nat → Nat → K) (hA : ∃ i j, i < rows ∧ j < cols ∧ A i j ≠ 0) (b : Nat → K) (wn we : Option (Nat → K))
    (hwn : ∀ k, k < cols → 0 < wt wn k) (hwe : ∀ k, k < rows → 0 < wt we k) (ans : Nat → K) :
    IsMP rows cols A b wn we (fun _ => 0) (zLESolveMP 0 0 sqrt rows cols A b wn we ans) := by
  obtain ⟨st, e, h, hp⟩ := zMatDecompLQ_exact sqrt hsq rows cols A (fun _ _ => 0)
  simp only [zMatDecompLQ, Bool.false_eq_true, if_false, Res.ok.injEq] at e
  unfold zLESolveMP
  dsimp only
  rw [e]
  have hr : st.rank > 0 := by
    rcases Nat.eq_zero_or_pos st.rank with h0 | h0
    · obtain ⟨i, j, hi, hj, hne⟩ := hA
      exact absurd (by rw [hp i j hi hj, h0]; simp) hne
    · exact h0
  rw [if_pos hr]
  obtain ⟨hperm, hL⟩ := solveMP_L_spec 0 rows cols A st.l st.q st.rank h b we hwe
  generalize solveMP_L 0 rows st.rank st.l b we = v at hperm hL ⊢
  obtain ⟨hx1, hx2⟩ := solveMP_R_spec cols st.rank st.q h.orth v.1 v.2 hperm wn hwn ans
  generalize solveMP_R 0 cols st.rank st.q v.1 v.2 wn ans = x at hx1 hx2 ⊢
  have hx : sqErr rows cols A b (wt we) x = sqErr rows st.rank st.l b (wt we) v.1 := by
    rw [sqErr_prod rows cols st.rank A st.l st.q hp]
    exact sqErr_congr _ _ _ _ _ _ _ hx1
  refine ⟨fun z => ?_, fun z hz hne => hx2 z (fun i hi => ?_) hne⟩
  · rw [hx, sqErr_prod rows cols st.rank A st.l st.q hp b (wt we) z]
    by_cases g : ∃ j, j < st.rank ∧ Ax cols st.q z j ≠ v.1 j
    · exact (hL _ g).le
    · push Not at g
      exact (sqErr_congr _ _ _ _ _ _ _ g).ge
  · by_contra g
    have := hL (Ax cols st.q z) ⟨i, hi, g⟩
    rw [← sqErr_prod rows cols st.rank A st.l st.q hp b (wt we) z, hz, hx] at this
    exact lt_irrefl _ this

/-- A singular system: `3 x + 4 y = 5`, `6 x + 8 y = 15` has the generalised solution `7/5 (3/5, 4/5)`. -/
example : let x := zLESolveMP (K := ℚ) 0 0 (fun x => if x = 25 then 5 else 0) 2 2 (fun i j => (i + 1) * (3 + j)) (fun i => if i = 0 then 5 else 15) none none (fun _ => 0)
    x 0 = 7 / 5 * (3 / 5) ∧ x 1 = 7 / 5 * (4 / 5) := by decide +kernel

example : IsMP 2 2 (fun i j => ((i + 1) * (3 + j) : ℝ)) (fun i => if i = 0 then 5 else 15) none none (fun _ => 0)
    (zLESolveMP 0 0 Real.sqrt 2 2 (fun i j => ((i + 1) * (3 + j) : ℝ)) (fun i => if i = 0 then 5 else 15) none none (fun _ => 0)) :=
  zLESolveMP_spec_partial _ real_sqrt_ok 2 2 _ ⟨0, 0, by norm_num, by norm_num, by norm_num⟩ _ none none (fun _ _ => by norm_num [wt]) (fun _ _ => by norm_num [wt]) _

/-- C102 is false of the zero matrix, whose generalised solution is zero: the answer is left as it was. -/
theorem zLESolveMP_zero_violated : zLESolveMP (K := ℝ) 0 0 Real.sqrt 1 1 (fun _ _ => 0) (fun _ => 1) none none (fun _ => 7) 0 = 7 ∧
    ¬ IsMP (K := ℝ) 1 1 (fun _ _ => 0) (fun _ => 1) none none (fun _ => 0) (zLESolveMP 0 0 Real.sqrt 1 1 (fun _ _ => 0) (fun _ => 1) none none (fun _ => 7)) := by
  have h : zLESolveMP (K := ℝ) 0 0 Real.sqrt 1 1 (fun _ _ => 0) (fun _ => 1) none none (fun _ => 7) = fun _ => 7 := by
    simp [zLESolveMP, zMatDecompLQDST, lqStep, forUp, forN, inner]
  rw [h]
  refine ⟨rfl, fun hm => ?_⟩
  have := hm.short (fun _ => 0) (by simp [sqErr, Ax]) ⟨0, by norm_num, by norm_num⟩
  norm_num [sqDist, wt] at this

/-- C102, `zLESolveMPAux`: the error is least, and of the vectors with that error the one nearest to the auxiliary vector. -/
theorem zLESolveMPAux_spec_partial (sqrt : K → K) (hsq : SqrtOk sqrt) (rows cols : Nat) (A : Nat → Nat → K) (hA : ∃ i j, i < rows ∧ j < cols ∧ A i j ≠ 0) (b : Nat → K) (wn we : Option (Nat → K))
    (hwn : ∀ k, k < cols → 0 < wt wn k) (hwe : ∀ k, k < rows → 0 < wt we k) (ans aux : Nat → K) :
    IsMP rows cols A b wn we aux (zLESolveMPAux 0 0 sqrt rows cols A b wn we ans aux) := by
  have h := zLESolveMP_spec_partial sqrt hsq rows cols A hA (zLEResidual rows cols A b aux) wn we hwn hwe ans
  unfold zLESolveMPAux
  generalize zLESolveMP 0 0 sqrt rows cols A (zLEResidual rows cols A b aux) wn we ans = y at h ⊢
  have hx : ∀ j, j < cols → addTo cols y aux j = y j + aux j := fun j hj => by rw [addTo_spec, if_pos hj]
  have e1 : ∀ v : Nat → K, sqErr rows cols A (zLEResidual rows cols A b aux) (wt we) (fun j => v j - aux j) = sqErr rows cols A b (wt we) v := by
    intro v
    refine sum_congr rfl fun k hk => ?_
    rw [zLEResidual_spec _ _ _ _ _ _ (mem_range.1 hk), Ax_sub]
    ring
  have e2 : ∀ v : Nat → K, sqDist cols (fun j => 1 / wt wn j) (fun _ => 0) (fun j => v j - aux j) = sqDist cols (fun j => 1 / wt wn j) aux v := by
    intro v
    exact sum_congr rfl fun k hk => by ring
  have e3 : sqErr rows cols A (zLEResidual rows cols A b aux) (wt we) y = sqErr rows cols A b (wt we) (addTo cols y aux) := by
    rw [← e1]
    exact sqErr_congr _ _ _ _ _ _ _ fun j hj => by rw [hx j hj]; ring
  have e4 : sqDist cols (fun j => 1 / wt wn j) (fun _ => 0) y = sqDist cols (fun j => 1 / wt wn j) aux (addTo cols y aux) :=
    sum_congr rfl fun k hk => by rw [hx k (mem_range.1 hk)]; ring
  refine ⟨fun z => ?_, fun z hz hne => ?_⟩
  · rw [← e3, ← e1 z]; exact h.least _
  · rw [← e4, ← e2 z]
    refine h.short _ (by rw [e1, e3, hz]) ?_
    obtain ⟨j, hj, hn⟩ := hne
    refine ⟨j, hj, fun h' => hn ?_⟩
    beta_reduce at h'
    rw [hx j hj]; linear_combination h'

/-! ## Null-space projector -/

/-- C103, `zLESolveMPNull`: for a matrix that is not zero, the matrix given back sends every vector into the null space, and it sends the vectors of the null space to their negatives: it is the negative
of the orthogonal projector (it is symmetric). -/
theorem mpNull_spec_partial (sqrt : K → K) (hsq : SqrtOk sqrt) (rows cols : Nat) (A : Nat → Nat → K) (hA : ∃ i j, i < rows ∧ j < cols ∧ A i j ≠ 0) (mn : Nat → Nat → K) :
    let N := mpNull 0 sqrt rows cols A mn
    (∀ i j, i < rows → j < cols → ∑ k ∈ range cols, A i k * N k j = 0) ∧
    (∀ z : Nat → K, (∀ i, i < rows → Ax cols A z i = 0) → ∀ j, j < cols → Ax cols N z j = - z j) ∧
    ∀ i j, i < cols → j < cols → N i j = N j i := by
  obtain ⟨st, e, h, hp⟩ := zMatDecompLQ_exact sqrt hsq rows cols A (fun _ _ => 0)
  simp only [zMatDecompLQ, Bool.false_eq_true, if_false, Res.ok.injEq] at e
  have hr : st.rank > 0 := by
    rcases Nat.eq_zero_or_pos st.rank with h0 | h0
    · obtain ⟨i, j, hi, hj, hne⟩ := hA
      exact absurd (by rw [hp i j hi hj, h0]; simp) hne
    · exact h0
  have hN : ∀ i j, i < cols → j < cols → mpNull 0 sqrt rows cols A mn i j = (∑ k ∈ range st.rank, st.q k i * st.q k j) - if i = j then 1 else 0 := by
    intro i j hi hj
    unfold mpNull
    rw [e, if_pos hr]
    by_cases g : st.rank = cols
    · rw [if_pos g]
      have ho := h.orth
      rw [g] at ho ⊢
      have := complete cols st.q ho (fun k => if k = i then 1 else 0) j hj
      beta_reduce at this
      have e2 : ∀ k, dot cols (fun k => if k = i then 1 else 0) (st.q k) = st.q k i := by
        intro k; simp [dot, hi]
      simp only [e2] at this
      rw [← this]
      by_cases g : i = j
      · rw [if_pos g, if_pos g.symm, sub_self]
      · rw [if_neg g, if_neg (Ne.symm g), sub_self]
    · rw [if_neg g]
      have hd := forUp_inv (lo := 0) (hi := cols) (fun i m => set2 m i i (m i i - 1)) (fun i j => inner st.rank (fun k => st.q k i) (fun k => st.q k j))
        (fun s (t : Nat → Nat → K) => ∀ i j, t i j = (∑ k ∈ range st.rank, st.q k i * st.q k j) - if i = j ∧ i < s then 1 else 0) (Nat.zero_le _)
        (by intro i j; simp [inner_spec])
        (by
          intro s t _ hs ih i j
          beta_reduce
          by_cases e : i = s ∧ j = s
          · rw [e.1, e.2, set2_same, ih, if_neg (by omega), if_pos (by omega)]; ring
          · rw [set2_ne _ _ e, ih]
            congr 1
            by_cases g : i = j ∧ i < s
            · rw [if_pos g, if_pos (by omega)]
            · rw [if_neg g, if_neg (by omega)])
      rw [hd i j]
      congr 1
      simp [hi]
  have hz : ∀ z : Nat → K, (∀ i, i < rows → Ax cols A z i = 0) → ∀ j, j < st.rank → Ax cols st.q z j = 0 := by
    intro z hz
    by_contra g
    push Not at g
    exact h.indep ⟨Ax cols st.q z, g, fun i hi => by rw [← Ax_prod rows cols st.rank A st.l st.q hp z i hi]; exact hz i hi⟩
  refine ⟨fun i j hi hj => ?_, fun z hzz j hj => ?_, fun i j hi hj => ?_⟩
  · have e1 : ∑ k ∈ range cols, A i k * mpNull 0 sqrt rows cols A mn k j = ∑ k ∈ range cols, A i k * (∑ s ∈ range st.rank, st.q s k * st.q s j) - A i j := by
      rw [sum_congr rfl (fun k hk => by rw [hN k j (mem_range.1 hk) hj, mul_sub]), sum_sub_distrib]
      congr 1
      simp [hj]
    rw [e1, sub_eq_zero]
    have e2 : ∑ k ∈ range cols, A i k * (∑ s ∈ range st.rank, st.q s k * st.q s j) = ∑ s ∈ range st.rank, st.q s j * dot cols (A i) (st.q s) := by
      unfold dot
      simp only [mul_sum]
      rw [sum_comm]
      exact sum_congr rfl fun _ _ => sum_congr rfl fun _ _ => by ring
    rw [e2, hp i j hi hj]
    refine sum_congr rfl fun s hs => ?_
    have e3 : dot cols (A i) (st.q s) = ∑ j ∈ range st.rank, st.l i j * dot cols (st.q j) (st.q s) := by
      unfold dot
      simp only [mul_sum]
      rw [sum_comm]
      refine sum_congr rfl fun k hk => ?_
      rw [hp i k hi (mem_range.1 hk), sum_mul]
      exact sum_congr rfl fun _ _ => by ring
    rw [e3, sum_congr rfl (fun j hj => by rw [h.orth j s (mem_range.1 hj) (mem_range.1 hs)])]
    simp only [mul_ite, mul_one, mul_zero, sum_ite_eq', hs, if_true]
    ring
  · unfold Ax
    rw [sum_congr rfl (fun k hk => by rw [hN j k hj (mem_range.1 hk), sub_mul]), sum_sub_distrib]
    have e1 : ∑ k ∈ range cols, (∑ s ∈ range st.rank, st.q s j * st.q s k) * z k = ∑ s ∈ range st.rank, st.q s j * Ax cols st.q z s := by
      unfold Ax
      simp only [mul_sum, sum_mul]
      rw [sum_comm]
      exact sum_congr rfl fun _ _ => sum_congr rfl fun _ _ => by ring
    rw [e1, sum_eq_zero (fun s hs => by rw [hz z hzz s (mem_range.1 hs), mul_zero])]
    simp [hj]
  · rw [hN i j hi hj, hN j i hj hi]
    congr 1
    · exact sum_congr rfl fun _ _ => mul_comm _ _
    · by_cases g : i = j
      · rw [if_pos g, if_pos g.symm]
      · rw [if_neg g, if_neg (Ne.symm g)]

/-- C103 is false of the projector as the header calls it: of the equation `x₀ = b` the vector `(0, 1)` of the null space is sent to `(0, -1)`. -/
theorem mpNull_sign_violated : let N := mpNull (K := ℝ) 0 Real.sqrt 1 2 (fun _ j => if j = 0 then 1 else 0) (fun _ _ => 0)
    Ax 2 (fun _ j => if j = 0 then (1 : ℝ) else 0) (fun j => if j = 1 then 1 else 0) 0 = 0 ∧ Ax 2 N (fun j => if j = 1 then 1 else 0) 1 = -1 := by
  have h := (mpNull_spec_partial Real.sqrt real_sqrt_ok 1 2 (fun _ j => if j = 0 then 1 else 0) ⟨0, 0, by norm_num, by norm_num, by norm_num⟩ (fun _ _ => 0)).2.1
    (fun j => if j = 1 then 1 else 0) (fun i _ => by norm_num [Ax, sum_range_succ]) 1 (by norm_num)
  exact ⟨by norm_num [Ax, sum_range_succ], h.trans (by norm_num)⟩

/-- C103 is false of the zero matrix: the matrix for the projector is left as it was. -/
theorem mpNull_zero_violated (mn : Nat → Nat → ℝ) : mpNull 0 Real.sqrt 1 1 (fun _ _ => 0) mn = mn := by
  simp [mpNull, zMatDecompLQDST, lqStep, forUp, forN, inner]

/-! ## Rank -/

/-- C104, `zMatDecompLQ` returns the rank of the matrix. -/
theorem zMatDecompLQ_rank (sqrt : K → K) (hsq : SqrtOk sqrt) (rows cols : Nat) (A q : Nat → Nat → K) :
    ∃ st, zMatDecompLQ 0 sqrt rows cols A q false = .ok st ∧ st.rank = (Matrix.of fun (i : Fin rows) (j : Fin cols) => A i j).rank := by
  obtain ⟨st, e, h, hp⟩ := zMatDecompLQ_exact sqrt hsq rows cols A q
  refine ⟨st, e, ?_⟩
  let L : Matrix (Fin rows) (Fin st.rank) K := fun i j => st.l i j
  let Q : Matrix (Fin st.rank) (Fin cols) K := fun i j => st.q i j
  have h1 : (Matrix.of fun (i : Fin rows) (j : Fin cols) => A i j) = L * Q := by
    ext i j
    rw [Matrix.mul_apply, Matrix.of_apply, hp i j i.2 j.2, sum_range]
  have h2 : Q * Q.transpose = 1 := by
    ext i j
    rw [Matrix.mul_apply]
    have e := h.orth i j i.2 j.2
    unfold dot at e
    rw [sum_range] at e
    rw [Matrix.one_apply]
    simp only [Fin.ext_iff]
    exact e
  have h3 : (L * Q).rank = L.rank := by
    apply le_antisymm (Matrix.rank_mul_le_left L Q)
    calc L.rank = ((L * Q) * Q.transpose).rank := by rw [Matrix.mul_assoc, h2, Matrix.mul_one]
      _ ≤ _ := Matrix.rank_mul_le_left _ _
  have h4 : L.rank = st.rank := by
    have hinj : LinearIndependent K L.col := by
      rw [Fintype.linearIndependent_iff]
      intro g hg i
      by_contra hne
      refine h.indep ⟨fun j => if hj : j < st.rank then g ⟨j, hj⟩ else 0, ⟨i, i.2, by simpa using hne⟩, fun a ha => ?_⟩
      have := congrFun hg ⟨a, ha⟩
      rw [Finset.sum_apply] at this
      unfold Ax
      rw [sum_range]
      refine (sum_congr rfl fun j _ => ?_).trans this
      simp [L, Matrix.col, mul_comm]
      left; rfl
    rw [← Matrix.rank_transpose]
    have := LinearIndependent.rank_matrix (M := L.transpose) hinj
    rw [this, Fintype.card_fin]
  rw [h1, h3, h4]

end Zm.LE
