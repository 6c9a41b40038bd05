import Verif.Props.Eig

/-! # C106: singular value decomposition -/

set_option linter.unusedSectionVars false

namespace Zm.Eig
open Zm Misc LE Finset
variable {K : Type*} [Field K] [LinearOrder K] [IsStrictOrderedRing K]

/-! ## Specification -/

/-- Orthonormal eigenvectors of a matrix, as columns. -/
def IsEig (n : Nat) (C : Nat → Nat → K) (val : Nat → K) (U : Nat → Nat → K) : Prop :=
  OrthCols n U ∧ ∀ a p, a < n → p < n → ∑ q ∈ range n, C a q * U q p = val p * U a p

/-- A singular value decomposition of rank `s.rank`: orthonormal columns of `u`, orthonormal rows of `v`, positive singular
values in descending order, zeros behind, and a product that differs from the matrix by not more than `err` in the sum of the
squares. -/
structure IsSVD (rows cols : Nat) (M : Nat → Nat → K) (s : SVD K) (err : K) : Prop where
  rank_le : s.rank ≤ rows ∧ s.rank ≤ cols
  u_orth : OrthCols rows s.u
  v_orth : Orthonormal s.rank cols s.v
  sv_pos : ∀ i, i < s.rank → 0 < s.sv i
  sv_desc : ∀ i j, i ≤ j → j < s.rank → s.sv j ≤ s.sv i
  sv_zero : ∀ i, s.rank ≤ i → i < rows → s.sv i = 0
  prod : ∑ a ∈ range rows, ∑ k ∈ range cols, (M a k - ∑ i ∈ range s.rank, s.u a i * s.sv i * s.v i k) ^ 2 ≤ err

/-! ## Sorting -/

theorem parseval (n : Nat) (V : Nat → Nat → K) (h : OrthCols n V) (x : Nat → K) :
    ∑ a ∈ range n, (∑ r ∈ range n, V a r * x r) ^ 2 = ∑ r ∈ range n, x r ^ 2 := by
  have s1 : ∀ a ∈ range n, (∑ r ∈ range n, V a r * x r) ^ 2 = ∑ r ∈ range n, ∑ r' ∈ range n, x r * x r' * (V a r * V a r') := by
    intro a _
    rw [pow_two, sum_mul_sum]
    exact sum_congr rfl fun r _ => sum_congr rfl fun r' _ => by ring
  rw [sum_congr rfl s1, sum_comm]
  refine sum_congr rfl fun r hr => ?_
  rw [sum_comm]
  have s2 : ∀ r' ∈ range n, ∑ a ∈ range n, x r * x r' * (V a r * V a r') = if r = r' then x r * x r' else 0 := by
    intro r' hr'
    rw [← mul_sum, h r r' (mem_range.1 hr) (mem_range.1 hr')]
    split <;> simp
  rw [sum_congr rfl s2, sum_ite_eq, if_pos hr, pow_two]

theorem IsEig.swap {n : Nat} {C : Nat → Nat → K} {val : Nat → K} {U : Nat → Nat → K} (h : IsEig n C val U) (i j : Nat) (hi : i < n) (hj : j < n) :
    IsEig n C (swap1 val i j) (swapCol U i j) := by
  have key : ∀ p, p < n → ∃ p', p' < n ∧ swap1 val i j p = val p' ∧ (∀ k, swapCol U i j k p = U k p') ∧ (p' = if p = i then j else if p = j then i else p) := by
    intro p hp
    by_cases e1 : p = i
    · exact ⟨j, hj, by simp [swap1, e1], fun k => by simp [swapCol, swap1, e1], by simp [e1]⟩
    by_cases e2 : p = j
    · exact ⟨i, hi, by rw [swap1, if_neg e1, if_pos e2], fun k => by rw [swapCol, swap1, if_neg e1, if_pos e2], by rw [if_neg e1, if_pos e2]⟩
    · exact ⟨p, hp, by rw [swap1, if_neg e1, if_neg e2], fun k => by rw [swapCol, swap1, if_neg e1, if_neg e2], by rw [if_neg e1, if_neg e2]⟩
  refine ⟨fun p q hp hq => ?_, fun a p ha hp => ?_⟩
  · obtain ⟨p', x1, -, x3, x4⟩ := key p hp
    obtain ⟨q', y1, -, y3, y4⟩ := key q hq
    simp only [x3, y3]
    rw [h.1 p' q' x1 y1]
    have : p' = q' ↔ p = q := by
      rw [x4, y4]
      by_cases e1 : p = i <;> by_cases e2 : p = j <;> by_cases e3 : q = i <;> by_cases e4 : q = j <;> simp_all <;> omega
    simp only [this]
  · obtain ⟨p', x1, x2, x3, -⟩ := key p hp
    simp only [x3, x2]
    exact h.2 a p' ha x1

/-- The state of the selection: the first `i` values are roots of the largest eigenvalues. -/
structure SelInv (sqrt : K → K) (svtol : K) (n : Nat) (C : Nat → Nat → K) (i : Nat) (sv : Nat → K) (u : Nat → Nat → K) (val : Nat → K) : Prop where
  eig : IsEig n C val u
  done : ∀ k, k < i → sv k = sqrt (val k) ∧ svtol < |val k|
  todo : ∀ k, i ≤ k → k < n → sv k = val k
  desc : ∀ k l, k < i → k ≤ l → l < n → val l ≤ val k

theorem svdSelect_spec (sqrt : K → K) (svtol : K) (rows lim : Nat) (hl : lim ≤ rows) (C : Nat → Nat → K) (fuel i : Nat) (hf : i + fuel = lim)
    (sv : Nat → K) (u : Nat → Nat → K) (val : Nat → K) (h : SelInv sqrt svtol rows C i sv u val) :
    ∃ val', (svdSelect sqrt svtol rows lim fuel i sv u).2.2 ≤ lim ∧
      SelInv sqrt svtol rows C (svdSelect sqrt svtol rows lim fuel i sv u).2.2 (svdSelect sqrt svtol rows lim fuel i sv u).1 (svdSelect sqrt svtol rows lim fuel i sv u).2.1 val' ∧
      ((svdSelect sqrt svtol rows lim fuel i sv u).2.2 = lim ∨ ∀ k, (svdSelect sqrt svtol rows lim fuel i sv u).2.2 ≤ k → k < rows → val' k ≤ svtol) := by
  induction fuel generalizing i sv u val with
  | zero => exact ⟨val, by simp only [svdSelect]; omega, h, Or.inl (by simp only [svdSelect]; omega)⟩
  | succ fuel ih =>
    unfold svdSelect
    rw [if_pos (by omega)]
    dsimp only
    obtain ⟨m1, m2, m3, -⟩ := Stat.zDataMax_spec (fun k => sv (i + k)) (rows - i) (by omega)
    generalize Stat.zDataMax (fun k => sv (i + k)) (rows - i) = r at m1 m2 m3 ⊢
    have hri : i ≤ r.2 + i ∧ r.2 + i < rows := by omega
    have hr1 : r.1 = val (r.2 + i) := by rw [m2]; show sv (i + r.2) = _; rw [add_comm]; exact h.todo _ hri.1 hri.2
    have hmax : ∀ k, i ≤ k → k < rows → val k ≤ r.1 := by
      intro k h1 h2
      have := m3 (k - i) (by omega)
      dsimp only at this
      rw [show i + (k - i) = k by omega, h.todo k h1 h2] at this
      exact this
    by_cases g : |r.1| ≤ svtol
    · rw [if_pos g]
      exact ⟨val, by show i ≤ lim; omega, h, Or.inr fun k h1 h2 => le_trans (hmax k h1 h2) (le_trans (le_abs_self _) g)⟩
    · rw [if_neg g]
      have e0 : swap1 sv i (r.2 + i) i = val (r.2 + i) := by rw [swap1, if_pos rfl, h.todo _ hri.1 hri.2]
      have e0' : swap1 val i (r.2 + i) i = val (r.2 + i) := by rw [swap1, if_pos rfl]
      have low : ∀ k, k < i → swap1 val i (r.2 + i) k = val k ∧ swap1 sv i (r.2 + i) k = sv k := by
        intro k hk
        constructor
        · rw [swap1, if_neg (by omega), if_neg (by omega)]
        · rw [swap1, if_neg (by omega), if_neg (by omega)]
      have high : ∀ k, i ≤ k → k < rows → swap1 sv i (r.2 + i) k = swap1 val i (r.2 + i) k ∧ ∃ k', i ≤ k' ∧ k' < rows ∧ swap1 val i (r.2 + i) k = val k' := by
        intro k h1 h2
        unfold swap1
        by_cases e1 : k = i
        · rw [if_pos e1, if_pos e1]; exact ⟨h.todo _ hri.1 hri.2, _, hri.1, hri.2, rfl⟩
        by_cases e2 : k = r.2 + i
        · rw [if_neg e1, if_pos e2, if_neg e1, if_pos e2]; exact ⟨h.todo i (le_refl _) (by omega), i, le_refl _, by omega, rfl⟩
        · rw [if_neg e1, if_neg e2, if_neg e1, if_neg e2]; exact ⟨h.todo k h1 h2, k, h1, h2, rfl⟩
      refine ih (i+1) (by omega) _ _ (swap1 val i (r.2 + i)) ⟨h.eig.swap i (r.2 + i) (by omega) hri.2, ?_, ?_, ?_⟩
      · intro k hk
        by_cases e : k = i
        · subst e
          rw [set1_same, e0, e0', ← hr1]
          exact ⟨rfl, not_le.1 g⟩
        · rw [set1_ne _ _ e, (low k (by omega)).1, (low k (by omega)).2]
          exact h.done k (by omega)
      · intro k h1 h2
        rw [set1_ne _ _ (by omega)]
        exact (high k (by omega) h2).1
      · intro k l h1 h2 h3
        by_cases e : k = i
        · subst e
          obtain ⟨-, l', l1, l2, l3⟩ := high l h2 h3
          rw [e0', l3, ← hr1]
          exact hmax l' l1 l2
        · rw [(low k (by omega)).1]
          by_cases e2 : l < i
          · rw [(low l e2).1]; exact h.desc k l (by omega) h2 h3
          · obtain ⟨-, l', l1, l2, l3⟩ := high l (by omega) h3
            rw [l3]; exact h.desc k l' (by omega) (by omega) l2

/-! ## The decomposition -/

theorem mulMatSelfT_spec (rows cols : Nat) (M : Nat → Nat → K) (a b : Nat) : mulMatSelfT rows cols M a b = ∑ k ∈ range cols, M a k * M b k := by
  unfold mulMatSelfT
  rw [inner_spec]
  exact sum_congr rfl fun k _ => mul_comm _ _

/-- The projections of the matrix on two eigenvectors. -/
theorem proj_dot (rows cols : Nat) (M : Nat → Nat → K) (val : Nat → K) (U : Nat → Nat → K) (h : IsEig rows (mulMatSelfT rows cols M) val U) (p q : Nat) (hp : p < rows) (hq : q < rows) :
    ∑ k ∈ range cols, (∑ a ∈ range rows, U a p * M a k) * (∑ b ∈ range rows, U b q * M b k) = if p = q then val q else 0 := by
  have e : ∑ k ∈ range cols, (∑ a ∈ range rows, U a p * M a k) * (∑ b ∈ range rows, U b q * M b k) =
      ∑ a ∈ range rows, U a p * ∑ b ∈ range rows, mulMatSelfT rows cols M a b * U b q := by
    simp only [mulMatSelfT_spec, sum_mul_sum]
    rw [sum_comm]
    refine sum_congr rfl fun a _ => ?_
    rw [sum_comm, mul_sum]
    refine sum_congr rfl fun b _ => ?_
    rw [sum_mul, mul_sum]
    exact sum_congr rfl fun k _ => by ring
  rw [e, sum_congr rfl fun a ha => by rw [h.2 a q (mem_range.1 ha) hq]]
  have := h.1 p q hp hq
  rw [sum_congr rfl fun a _ => show U a p * (val q * U a q) = val q * (U a p * U a q) by ring, ← mul_sum, this]
  split <;> simp

theorem zMatSVDSort_spec (sqrt : K → K) (svtol : K) (rows cols : Nat) (C : Nat → Nat → K) (val : Nat → K) (U : Nat → Nat → K) (h : IsEig rows C val U) :
    ∃ val', (zMatSVDSort sqrt svtol rows cols val U).2.2 ≤ min rows cols ∧ IsEig rows C val' (zMatSVDSort sqrt svtol rows cols val U).2.1 ∧
      (∀ k, k < (zMatSVDSort sqrt svtol rows cols val U).2.2 → (zMatSVDSort sqrt svtol rows cols val U).1 k = sqrt (val' k) ∧ svtol < |val' k|) ∧
      (∀ k l, k < (zMatSVDSort sqrt svtol rows cols val U).2.2 → k ≤ l → l < rows → val' l ≤ val' k) ∧
      (∀ k, (zMatSVDSort sqrt svtol rows cols val U).2.2 ≤ k → k < rows → (zMatSVDSort sqrt svtol rows cols val U).1 k = 0) ∧
      ((zMatSVDSort sqrt svtol rows cols val U).2.2 = min rows cols ∨ ∀ k, (zMatSVDSort sqrt svtol rows cols val U).2.2 ≤ k → k < rows → val' k ≤ svtol) := by
  unfold zMatSVDSort
  dsimp only
  obtain ⟨val', r1, r2, r3⟩ := svdSelect_spec sqrt svtol rows (min rows cols) (min_le_left _ _) C (min rows cols) 0 (by omega) val U val
    ⟨h, fun k hk => by omega, fun k _ _ => rfl, fun k l hk => by omega⟩
  generalize svdSelect sqrt svtol rows (min rows cols) (min rows cols) 0 val U = r at r1 r2 r3 ⊢
  obtain ⟨sv, u, rk⟩ := r
  dsimp only at r1 r2 r3 ⊢
  have hz := forUp_set1 (lo := rk) (hi := rows) (fun _ _ => (0 : K)) sv (fun _ => 0) (fun k t _ _ _ _ => rfl)
  rw [hz]
  refine ⟨val', r1, r2.eig, fun k hk => ?_, r2.desc, fun k h1 h2 => ?_, r3⟩
  · beta_reduce; rw [if_neg (by omega)]; exact r2.done k hk
  · exact if_pos ⟨h1, h2⟩

/-- **C106.** If the eigensolver delivers orthonormal eigenvectors of `M M^T`, the decomposition is one of `M` up to the
directions whose squared singular values are below the tolerance. -/
theorem zMatSVD_correct_partial (sqrt : K → K) (hq : SqrtOk sqrt) (svtol : K) (ht : 0 ≤ svtol) (eig : (Nat → Nat → K) → Res ((Nat → K) × (Nat → Nat → K) × Bool))
    (rows cols : Nat) (M : Nat → Nat → K) (val : Nat → K) (U : Nat → Nat → K) (done : Bool)
    (he : eig (mulMatSelfT rows cols M) = .ok (val, U, done)) (h : IsEig rows (mulMatSelfT rows cols M) val U) :
    ∃ s, zMatSVD sqrt svtol eig rows cols M = .ok s ∧ IsSVD rows cols M s ((rows - s.rank : K) * svtol) := by
  unfold zMatSVD
  rw [he]
  dsimp only [Res.bind]
  obtain ⟨val', r1, re, r2, rd, rz, r3⟩ := zMatSVDSort_spec sqrt svtol rows cols (mulMatSelfT rows cols M) val U h
  generalize zMatSVDSort sqrt svtol rows cols val U = r at r1 re r2 rd rz r3 ⊢
  obtain ⟨sv, u, rk⟩ := r
  dsimp only at r1 re r2 rd rz r3 ⊢
  have hrr : rk ≤ rows := le_trans r1 (min_le_left _ _)
  have hrc : rk ≤ cols := le_trans r1 (min_le_right _ _)
  have hnn : ∀ p, p < rows → 0 ≤ val' p := by
    intro p hp
    have := proj_dot rows cols M val' u re p p hp hp
    rw [if_pos rfl] at this
    rw [← this]
    exact sum_nonneg fun k _ => mul_self_nonneg _
  have hlow : ∀ i, i < rk → sv i = sqrt (val' i) ∧ 0 < sqrt (val' i) ∧ sqrt (val' i) * sqrt (val' i) = val' i := by
    intro i hi
    obtain ⟨d1, d2⟩ := r2 i hi
    have hp : 0 < val' i := by
      rw [abs_of_nonneg (hnn i (by omega))] at d2
      exact lt_of_le_of_lt ht d2
    obtain ⟨q1, q2⟩ := hq (val' i) (le_of_lt hp)
    refine ⟨d1, lt_of_le_of_ne q1 fun e => ?_, q2⟩
    rw [← e, mul_zero] at q2
    exact absurd hp (by rw [← q2]; exact lt_irrefl _)
  rw [if_neg (by
    rintro ⟨i, hi, e⟩
    rw [(hlow i hi).1] at e
    exact absurd e (ne_of_gt (hlow i hi).2.1))]
  have hv : ∀ i k, i < rk → inner rows (fun a => u a i) (fun a => M a k) * (1 / sv i) = (∑ a ∈ range rows, u a i * M a k) / sqrt (val' i) := by
    intro i k hi
    rw [inner_spec, (hlow i hi).1, mul_one_div]
  have vorth : Orthonormal rk cols (fun i k => inner rows (fun a => u a i) (fun a => M a k) * (1 / sv i)) := by
    intro i j hi hj
    unfold dot
    beta_reduce
    rw [sum_congr rfl fun k _ => show _ = (∑ a ∈ range rows, u a i * M a k) * (∑ a ∈ range rows, u a j * M a k) / (sqrt (val' i) * sqrt (val' j)) by
      rw [hv i k hi, hv j k hj, div_mul_div_comm], ← sum_div, proj_dot rows cols M val' u re i j (by omega) (by omega)]
    by_cases e : i = j
    · subst e
      rw [if_pos rfl, if_pos rfl, (hlow i hi).2.2]
      exact div_self (by rw [← (hlow i hi).2.2]; exact mul_ne_zero (ne_of_gt (hlow i hi).2.1) (ne_of_gt (hlow i hi).2.1))
    · rw [if_neg e, if_neg e, zero_div]
  refine ⟨_, rfl, ⟨hrr, hrc⟩, re.1, vorth, ?_, ?_, ?_, ?_⟩
  · intro i hi
    show 0 < sv i
    rw [(hlow i hi).1]; exact (hlow i hi).2.1
  · intro i j hij hj
    show sv j ≤ sv i
    have hj' : j < rk := hj
    rw [(hlow j hj').1, (hlow i (by omega)).1]
    have hd := rd i j (by omega) hij (by omega)
    rw [← (hlow j hj').2.2, ← (hlow i (by omega)).2.2] at hd
    exact le_of_not_gt fun g => absurd hd (not_le.2 (mul_self_lt_mul_self (le_of_lt (hlow i (by omega)).2.1) g))
  · intro i h1 h2
    exact rz i h1 h2
  · dsimp only
    -- the matrix is the sum of its projections
    have full : ∀ a k, a < rows → M a k = ∑ i ∈ range rows, u a i * ∑ b ∈ range rows, u b i * M b k := by
      intro a k ha
      have := complete rows (fun i b => u b i) (fun p q hp hq => re.1 p q hp hq) (fun b => M b k) a ha
      rw [this]
      refine sum_congr rfl fun i _ => ?_
      rw [mul_comm]
      congr 1
      exact sum_congr rfl fun b _ => mul_comm _ _
    have hE : ∀ a k, a < rows → M a k - ∑ i ∈ range rk, u a i * sv i * (inner rows (fun a => u a i) (fun a => M a k) * (1 / sv i)) =
        ∑ i ∈ range rows, u a i * (if i < rk then 0 else ∑ b ∈ range rows, u b i * M b k) := by
      intro a k ha
      have s1 : ∑ i ∈ range rk, u a i * sv i * (inner rows (fun a => u a i) (fun a => M a k) * (1 / sv i)) =
          ∑ i ∈ range rk, u a i * ∑ b ∈ range rows, u b i * M b k := by
        refine sum_congr rfl fun i hi => ?_
        have hi' := mem_range.1 hi
        rw [hv i k hi', (hlow i hi').1, mul_assoc, mul_div_cancel₀ _ (ne_of_gt (hlow i hi').2.1)]
      rw [s1, full a k ha]
      rw [← sum_range_add_sum_Ico _ hrr, ← sum_range_add_sum_Ico (fun i => u a i * (if i < rk then 0 else ∑ b ∈ range rows, u b i * M b k)) hrr, add_sub_cancel_left]
      rw [sum_eq_zero (s := range rk) (fun i hi => by rw [if_pos (mem_range.1 hi), mul_zero]), zero_add]
      exact sum_congr rfl fun i hi => by rw [if_neg (not_lt.2 (mem_Ico.1 hi).1)]
    rw [sum_congr rfl fun a ha => sum_congr rfl fun k _ => by rw [hE a k (mem_range.1 ha)]]
    rw [sum_comm, sum_congr rfl fun k _ => parseval rows u re.1 _, sum_comm]
    -- the rest is the sum of the eigenvalues left out
    have hrow : ∀ i ∈ range rows, ∑ k ∈ range cols, (if i < rk then 0 else ∑ b ∈ range rows, u b i * M b k) ^ 2 = if i < rk then 0 else val' i := by
      intro i hi
      by_cases e : i < rk
      · simp [e]
      · simp only [if_neg e]
        have := proj_dot rows cols M val' u re i i (mem_range.1 hi) (mem_range.1 hi)
        rw [if_pos rfl] at this
        rw [← this]
        exact sum_congr rfl fun k _ => pow_two _
    rw [sum_congr rfl hrow, ← sum_range_add_sum_Ico _ hrr, sum_eq_zero (s := range rk) (fun i hi => by rw [if_pos (mem_range.1 hi)]), zero_add]
    have hle : ∀ i ∈ Ico rk rows, (if i < rk then 0 else val' i) ≤ svtol := by
      intro i hi
      obtain ⟨i1, i2⟩ := mem_Ico.1 hi
      rw [if_neg (not_lt.2 i1)]
      rcases r3 with e | g
      · have ec : rk = cols := by rw [e]; omega
        subst ec
        have hw : ∀ k, k < rk → ∑ b ∈ range rows, u b i * M b k = 0 := by
          intro k hk
          rw [complete rk _ vorth (fun k => ∑ b ∈ range rows, u b i * M b k) k hk]
          refine sum_eq_zero fun j hj => ?_
          have hj' := mem_range.1 hj
          have : dot rk (fun k => ∑ b ∈ range rows, u b i * M b k) (fun k => inner rows (fun a => u a j) (fun a => M a k) * (1 / sv j)) = 0 := by
            unfold dot
            beta_reduce
            rw [sum_congr rfl fun k _ => show _ = (∑ b ∈ range rows, u b i * M b k) * (∑ a ∈ range rows, u a j * M a k) / sqrt (val' j) by
              rw [hv j k hj', ← mul_div_assoc], ← sum_div, proj_dot rows rk M val' u re i j i2 (by omega), if_neg (by omega), zero_div]
          rw [this, zero_mul]
        have := proj_dot rows rk M val' u re i i i2 i2
        rw [if_pos rfl] at this
        rw [← this, sum_eq_zero fun k hk => by rw [hw k (mem_range.1 hk), mul_zero]]
        exact ht
      · exact g i i1 i2
    refine le_trans (sum_le_sum hle) ?_
    rw [sum_const, Nat.card_Ico, nsmul_eq_mul, Nat.cast_sub hrr]

/-- **C106.** Without tolerances the product of the three factors is the matrix. -/
theorem zMatSVD_exact (sqrt : K → K) (hq : SqrtOk sqrt) (limit : Nat) (qe : K → K → K → K × K) (rows cols : Nat) (hr : 2 ≤ rows) (M : Nat → Nat → K)
    (hd : ∃ val U, zMatSymEigJacobi sqrt 0 limit qe rows (mulMatSelfT rows cols M) = .ok (val, U, true)) :
    ∃ s, zMatSVD sqrt 0 (zMatSymEigJacobi sqrt 0 limit qe rows) rows cols M = .ok s ∧ IsSVD rows cols M s 0 ∧
      ∀ a k, a < rows → k < cols → M a k = ∑ i ∈ range s.rank, s.u a i * s.sv i * s.v i k := by
  obtain ⟨val, U, e⟩ := hd
  have hs : Symm rows (mulMatSelfT rows cols M) := fun p q _ _ => by
    rw [mulMatSelfT_spec, mulMatSelfT_spec]
    exact sum_congr rfl fun k _ => mul_comm _ _
  obtain ⟨s, s1, s2⟩ := zMatSVD_correct_partial sqrt hq 0 (le_refl _) (zMatSymEigJacobi sqrt 0 limit qe rows) rows cols M val U true e
    (zMatSymEigJacobi_exact sqrt hq limit qe rows hr _ hs val U e)
  rw [mul_zero] at s2
  refine ⟨s, s1, s2, fun a k ha hk => ?_⟩
  have z := (sum_eq_zero_iff_of_nonneg fun a _ => sum_nonneg fun k _ => sq_nonneg _).1 (le_antisymm s2.prod (sum_nonneg fun a _ => sum_nonneg fun k _ => sq_nonneg _)) a (mem_range.2 ha)
  have z2 := (sum_eq_zero_iff_of_nonneg fun k _ => sq_nonneg _).1 z k (mem_range.2 hk)
  exact sub_eq_zero.1 (pow_eq_zero_iff (by norm_num) |>.1 z2)

/-- **C106 is violated** for a matrix with one row. -/
theorem zMatSVD_violated_row (sqrt : K → K) (tol svtol : K) (limit : Nat) (qe : K → K → K → K × K) (cols : Nat) (M : Nat → Nat → K) :
    zMatSVD sqrt svtol (zMatSymEigJacobi sqrt tol limit qe 1) 1 cols M = .ub := rfl

/-- The matrix ((3, 0), (0, 5)) as a run with rational roots: the singular values 5 and 3 with the columns exchanged. -/
example : (match zMatSVD (K := ℚ) (fun x => if x = 25 then 5 else if x = 9 then 3 else 0) (1 / 10 ^ 6)
      (zMatSymEigJacobi (fun x => if x = 25 then 5 else if x = 9 then 3 else 0) (1 / 10 ^ 12) 10000 (fun _ _ _ => (0, 0)) 2) 2 2
      (fun i j => if i = 0 ∧ j = 0 then 3 else if i = 1 ∧ j = 1 then 5 else 0) with
    | .ok s => decide (s.rank = 2 ∧ s.sv 0 = 5 ∧ s.sv 1 = 3 ∧ s.u 0 0 = 0 ∧ s.u 1 0 = 1 ∧ s.v 0 0 = 0 ∧ s.v 0 1 = 1 ∧ s.v 1 0 = 1)
    | _ => false) = true := by decide +kernel

end Zm.Eig
