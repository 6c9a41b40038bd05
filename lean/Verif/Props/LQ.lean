import Verif.Props.LEGen
import Mathlib.LinearAlgebra.Matrix.NonsingularInverse
import Mathlib.Data.Real.Sqrt

/-! # C77: LQ and QR decomposition -/

set_option linter.unusedSectionVars false

namespace Zm.LE
open Zm Misc Finset
variable {K : Type*} [Field K] [LinearOrder K] [IsStrictOrderedRing K]

/-! ## Specification -/

/-- Inner product of the first `n` components. -/
def dot (n : Nat) (u v : Nat → K) : K := ∑ k ∈ range n, u k * v k

/-- The first `r` rows of `q` are orthonormal. -/
def Orthonormal (r n : Nat) (q : Nat → Nat → K) : Prop := ∀ i j, i < r → j < r → dot n (q i) (q j) = if i = j then 1 else 0

/-- The square root of the library. -/
def SqrtOk (sqrt : K → K) : Prop := ∀ x, 0 ≤ x → 0 ≤ sqrt x ∧ sqrt x * sqrt x = x

/-- What is left of the row `i` of `A` after the product of `l` and `q`. -/
def rest (r : Nat) (A l q : Nat → Nat → K) (i k : Nat) : K := A i k - ∑ j ∈ range r, l i j * q j k

/-! ## Orthonormal rows -/

theorem dot_comm (n : Nat) (u v : Nat → K) : dot n u v = dot n v u := sum_congr rfl fun k _ => mul_comm _ _

theorem dot_nonneg (n : Nat) (u : Nat → K) : 0 ≤ dot n u u := sum_nonneg fun k _ => mul_self_nonneg _

theorem dot_congr (n : Nat) (u u' v v' : Nat → K) (hu : ∀ k, k < n → u k = u' k) (hv : ∀ k, k < n → v k = v' k) : dot n u v = dot n u' v' :=
  sum_congr rfl fun k hk => by rw [hu k (mem_range.1 hk), hv k (mem_range.1 hk)]

theorem dot_zero (n : Nat) (u : Nat → K) (h : dot n u u = 0) (k : Nat) (hk : k < n) : u k = 0 := by
  have h1 := (sum_eq_zero_iff_of_nonneg (fun k _ => mul_self_nonneg (u k))).1 h k (mem_range.2 hk)
  exact mul_self_eq_zero.1 h1

/-- Taking combinations of orthonormal rows away. -/
theorem dot_comb (r n : Nat) (q : Nat → Nat → K) (h : Orthonormal r n q) (a c : Nat → K) (s j : Nat) (hs : s ≤ r) (hj : j < r) :
    dot n (fun k => a k - ∑ i ∈ range s, c i * q i k) (q j) = dot n a (q j) - if j < s then c j else 0 := by
  have e : dot n (fun k => a k - ∑ i ∈ range s, c i * q i k) (q j) = dot n a (q j) - ∑ i ∈ range s, c i * dot n (q i) (q j) := by
    unfold dot
    simp only [sub_mul, sum_sub_distrib, sum_mul, mul_sum]
    congr 1
    rw [sum_comm]
    exact sum_congr rfl fun i _ => sum_congr rfl fun k _ => by ring
  rw [e]
  congr 1
  have e2 : ∀ i ∈ range s, c i * dot n (q i) (q j) = if j = i then c i else 0 := by
    intro i hi
    rw [h i j (by have := mem_range.1 hi; omega) hj]
    by_cases g : i = j
    · rw [if_pos g, if_pos g.symm, mul_one]
    · rw [if_neg g, if_neg (Ne.symm g), mul_zero]
  rw [sum_congr rfl e2, sum_ite_eq]
  simp only [mem_range]

/-- As many orthonormal rows as columns span everything. -/
theorem complete (n : Nat) (q : Nat → Nat → K) (h : Orthonormal n n q) (a : Nat → K) (k : Nat) (hk : k < n) :
    a k = ∑ j ∈ range n, dot n a (q j) * q j k := by
  let Q : Matrix (Fin n) (Fin n) K := fun i j => q i j
  have h1 : Q * Q.transpose = 1 := by
    ext i j
    rw [Matrix.mul_apply]
    have e := h i j i.2 j.2
    unfold dot at e
    rw [sum_range] at e
    rw [Matrix.one_apply]
    simp only [Fin.ext_iff]
    exact e
  have h2 := mul_eq_one_comm.1 h1
  have h3 : ∀ k', k' < n → ∑ j ∈ range n, q j k' * q j k = if k' = k then 1 else 0 := by
    intro k' hk'
    have e := congrFun (congrFun h2 ⟨k', hk'⟩) ⟨k, hk⟩
    rw [Matrix.mul_apply, Matrix.one_apply] at e
    simp only [Fin.ext_iff] at e
    rw [sum_range]
    exact e
  have e : ∑ j ∈ range n, dot n a (q j) * q j k = ∑ k' ∈ range n, a k' * ∑ j ∈ range n, q j k' * q j k := by
    unfold dot
    simp only [sum_mul, mul_sum]
    rw [sum_comm]
    exact sum_congr rfl fun i _ => sum_congr rfl fun j _ => by ring
  rw [e, sum_congr rfl (fun k' hk' => by rw [h3 k' (mem_range.1 hk')])]
  simp [hk]

/-! ## Gram-Schmidt -/

/-- The removal of the components along the rows of `q`. -/
theorem lqSub_loop (cols i : Nat) (st : LQS K) (h : Orthonormal st.rank cols st.q) :
    let t := forUp 0 st.rank (lqSub cols i) st
    t.rank = st.rank ∧ t.q = st.q ∧
    (∀ i' k, i' ≠ i → t.m i' k = st.m i' k) ∧
    (∀ k, k < cols → t.m i k = st.m i k - ∑ j ∈ range st.rank, dot cols (st.m i) (st.q j) * st.q j k) ∧
    (∀ i' j, t.l i' j = if i' = i ∧ j < st.rank then dot cols (st.m i) (st.q j) else st.l i' j) := by
  have hh := forUp_inv (lo := 0) (hi := st.rank) (lqSub cols i) st
    (fun s t => t.rank = st.rank ∧ t.q = st.q ∧
      (∀ i' k, i' ≠ i → t.m i' k = st.m i' k) ∧
      (∀ k, k < cols → t.m i k = st.m i k - ∑ j ∈ range s, dot cols (st.m i) (st.q j) * st.q j k) ∧
      (∀ i' j, t.l i' j = if i' = i ∧ j < s then dot cols (st.m i) (st.q j) else st.l i' j)) (Nat.zero_le _)
    ⟨rfl, rfl, fun _ _ _ => rfl, fun k _ => by simp, fun i' j => by simp⟩
    (by
      rintro s t _ hs ⟨h1, h2, h3, h4, h5⟩
      have hr : inner cols (t.m i) (t.q s) = dot cols (st.m i) (st.q s) := by
        rw [inner_spec, h2]
        show dot cols (t.m i) (st.q s) = _
        rw [dot_congr cols _ _ _ _ h4 (fun _ _ => rfl), dot_comb st.rank cols st.q h _ _ s s hs.le hs, if_neg (by omega), sub_zero]
      unfold lqSub
      dsimp only
      rw [hr, forUp_row i (fun k m => m i k + t.q s k * -dot cols (st.m i) (st.q s)) t.m
        (fun k => t.m i k + t.q s k * -dot cols (st.m i) (st.q s)) (fun k u g1 g2 g3 => by rw [g3 i k (by omega)])]
      refine ⟨h1, h2, fun i' k hi' => ?_, fun k hk => ?_, fun i' j => ?_⟩
      · beta_reduce; rw [if_neg (by tauto)]; exact h3 i' k hi'
      · beta_reduce
        rw [if_pos ⟨rfl, Nat.zero_le _, hk⟩, h4 k hk, sum_range_succ, h2]
        ring
      · by_cases e : i' = i ∧ j = s
        · rw [e.1, e.2, set2_same, if_pos ⟨rfl, by omega⟩]
        · rw [set2_ne _ _ e, h5]
          by_cases g : i' = i ∧ j < s
          · rw [if_pos g, if_pos ⟨g.1, by omega⟩]
          · rw [if_neg g, if_neg (by omega)])
  exact hh

/-- State of the decomposition after the rows below `i`. -/
structure LQInv (tol : K) (cols : Nat) (A : Nat → Nat → K) (i : Nat) (st : LQS K) : Prop where
  le_row : st.rank ≤ i
  le_col : st.rank ≤ cols
  orth : Orthonormal st.rank cols st.q
  zero : ∀ i' j, ¬ (i' < i ∧ j ≤ i' ∧ j < st.rank) → st.l i' j = 0
  same : ∀ i' k, i ≤ i' → st.m i' k = A i' k
  res : ∀ i', i' < i → dot cols (rest st.rank A st.l st.q i') (rest st.rank A st.l st.q i') ≤ tol * tol
  lead : ∀ k, k < st.rank → ∃ i', i' < i ∧ 0 < st.l i' k ∧ ∀ k', k < k' → st.l i' k' = 0
  full : st.rank = i → ∀ k, k < i → 0 < st.l k k

theorem lqStep_inv (tol : K) (htol : 0 ≤ tol) (sqrt : K → K) (hsq : SqrtOk sqrt) (cols : Nat) (A : Nat → Nat → K) (i : Nat) (st : LQS K)
    (h : LQInv tol cols A i st) : LQInv tol cols A (i+1) (lqStep tol sqrt cols i st) := by
  unfold lqStep
  dsimp only
  obtain ⟨g1, g2, g3, g4, g5⟩ := lqSub_loop cols i st h.orth
  generalize forUp 0 st.rank (lqSub cols i) st = t at g1 g2 g3 g4 g5 ⊢
  have hA : ∀ j, dot cols (st.m i) (st.q j) = dot cols (A i) (st.q j) := fun j => dot_congr cols _ _ _ _ (fun k _ => h.same i k (le_refl _)) (fun _ _ => rfl)
  have g4' : ∀ k, k < cols → t.m i k = A i k - ∑ j ∈ range st.rank, dot cols (A i) (st.q j) * st.q j k := by
    intro k hk
    rw [g4 k hk, h.same i k (le_refl _)]
    congr 1
    exact sum_congr rfl fun j _ => by rw [hA]
  have g5' : ∀ i' j, t.l i' j = if i' = i ∧ j < st.rank then dot cols (A i) (st.q j) else st.l i' j := by
    intro i' j; rw [g5, hA]
  have hperp : ∀ j, j < st.rank → dot cols (t.m i) (st.q j) = 0 := by
    intro j hj
    rw [dot_congr cols _ _ _ _ g4' (fun _ _ => rfl), dot_comb st.rank cols st.q h.orth _ _ st.rank j (le_refl _) hj, if_pos hj, sub_self]
  rw [inner_spec, show (∑ k ∈ range cols, t.m i k * t.m i k) = dot cols (t.m i) (t.m i) from rfl]
  obtain ⟨s1, s2⟩ := hsq _ (dot_nonneg cols (t.m i))
  generalize sqrt (dot cols (t.m i) (t.m i)) = r at s1 s2 ⊢
  -- what is left of the row with the new coefficients
  have hold : ∀ i', i' < i → ∀ k, rest st.rank A t.l st.q i' k = rest st.rank A st.l st.q i' k := by
    intro i' hi' k
    unfold rest
    congr 1
    exact sum_congr rfl fun j _ => by rw [g5', if_neg (by omega)]
  have hnew : ∀ k, k < cols → rest st.rank A t.l st.q i k = t.m i k := by
    intro k hk
    rw [g4' k hk]
    unfold rest
    congr 1
    exact sum_congr rfl fun j hj => by rw [g5', if_pos ⟨rfl, mem_range.1 hj⟩]
  by_cases htiny : |r| ≤ tol
  · rw [if_pos htiny]
    refine ⟨by rw [g1]; have := h.le_row; omega, by rw [g1]; exact h.le_col, by rw [g1, g2]; exact h.orth, ?_, ?_, ?_, ?_, ?_⟩
    · intro i' j hn
      rw [g1] at hn
      rw [g5']
      by_cases e : i' = i ∧ j < st.rank
      · have := h.le_row; omega
      · rw [if_neg e]; exact h.zero i' j (by omega)
    · intro i' k hi'; rw [g3 i' k (by omega)]; exact h.same i' k (by omega)
    · intro i' hi'
      rw [g1, g2]
      by_cases e : i' = i
      · subst e
        rw [dot_congr cols _ _ _ _ hnew hnew, ← s2]
        rw [abs_of_nonneg s1] at htiny
        exact mul_le_mul htiny htiny s1 htol
      · rw [dot_congr cols _ _ _ _ (fun k _ => hold i' (by omega) k) (fun k _ => hold i' (by omega) k)]
        exact h.res i' (by omega)
    · intro k hk
      rw [g1] at hk
      obtain ⟨i', e1, e2, e3⟩ := h.lead k hk
      refine ⟨i', by omega, by rw [g5', if_neg (by omega)]; exact e2, fun k' hk' => by rw [g5', if_neg (by omega)]; exact e3 k' hk'⟩
    · intro e; rw [g1] at e; have := h.le_row; omega
  · rw [if_neg htiny]
    have hr0 : r ≠ 0 := fun e => htiny (by rw [e, abs_zero]; exact htol)
    have hrp : 0 < r := lt_of_le_of_ne s1 (Ne.symm hr0)
    have hlt : st.rank < cols := by
      rcases Nat.lt_or_ge st.rank cols with e | e
      · exact e
      · exfalso
        have e' : st.rank = cols := le_antisymm h.le_col e
        have horth := h.orth
        rw [e'] at horth
        have hz : dot cols (t.m i) (t.m i) = 0 := by
          refine sum_eq_zero fun k hk => ?_
          have : t.m i k = 0 := by
            rw [g4' k (mem_range.1 hk), e', sub_eq_zero]
            exact complete cols st.q horth (A i) k (mem_range.1 hk)
          rw [this, zero_mul]
        rw [hz] at s2
        exact hr0 (mul_self_eq_zero.1 s2)
    rw [g1, if_pos hlt]
    have hq : ∀ a k, k < cols → (forUp 0 cols (fun k q => set2 q st.rank k (t.m i k * (1 / r))) t.q) a k =
        if a = st.rank then t.m i k / r else st.q a k := by
      intro a k hk
      rw [forUp_row st.rank (fun k _ => t.m i k * (1 / r)) t.q (fun k => t.m i k / r) (fun k _ _ _ _ => by rw [mul_one_div])]
      beta_reduce
      by_cases e : a = st.rank
      · rw [if_pos ⟨e, Nat.zero_le _, hk⟩, if_pos e]
      · rw [if_neg (by tauto), if_neg e, g2]
    generalize forUp 0 cols (fun k q => set2 q st.rank k (t.m i k * (1 / r))) t.q = q' at hq ⊢
    have hqlt : ∀ a, a < st.rank → ∀ k, k < cols → q' a k = st.q a k := fun a ha k hk => by rw [hq a k hk, if_neg (by omega)]
    have hqr : ∀ k, k < cols → q' st.rank k = t.m i k / r := fun k hk => by rw [hq _ k hk, if_pos rfl]
    have hdr : ∀ v : Nat → K, dot cols (q' st.rank) v = dot cols (t.m i) v / r := by
      intro v
      unfold dot
      rw [sum_div]
      exact sum_congr rfl fun k hk => by rw [hqr k (mem_range.1 hk)]; ring
    have hl : ∀ i' j, set2 t.l i st.rank r i' j = if i' = i ∧ j = st.rank then r else if i' = i ∧ j < st.rank then dot cols (A i) (st.q j) else st.l i' j := by
      intro i' j
      by_cases e : i' = i ∧ j = st.rank
      · rw [if_pos e, e.1, e.2, set2_same]
      · rw [if_neg e, set2_ne _ _ e, g5']
    have hsum : ∀ i' k, k < cols → rest (st.rank + 1) A (set2 t.l i st.rank r) q' i' k =
        rest st.rank A t.l st.q i' k - set2 t.l i st.rank r i' st.rank * (t.m i k / r) := by
      intro i' k hk
      unfold rest
      rw [sum_range_succ, hqr k hk, sub_sub]
      congr 2
      refine sum_congr rfl fun j hj => ?_
      rw [hqlt j (mem_range.1 hj) k hk, set2_ne_col _ _ (by have := mem_range.1 hj; omega)]
    have hrow := h.le_row
    refine ⟨by dsimp only; omega, by dsimp only; omega, ?_, ?_, ?_, ?_, ?_, ?_⟩
    · intro a b ha hb
      dsimp only at ha hb ⊢
      by_cases ea : a = st.rank
      · subst ea
        rw [hdr]
        by_cases eb : b = st.rank
        · subst eb
          rw [dot_comm, hdr, if_pos rfl, ← s2]
          field_simp
        · rw [dot_congr cols _ _ _ _ (fun _ _ => rfl) (hqlt b (by omega)), hperp b (by omega), zero_div, if_neg (Ne.symm eb)]
      · by_cases eb : b = st.rank
        · subst eb
          rw [dot_comm, hdr, dot_congr cols _ _ _ _ (fun _ _ => rfl) (hqlt a (by omega)), hperp a (by omega), zero_div, if_neg ea]
        · rw [dot_congr cols _ _ _ _ (hqlt a (by omega)) (hqlt b (by omega))]
          exact h.orth a b (by omega) (by omega)
    · intro i' j hn
      dsimp only at hn ⊢
      rw [hl, if_neg (by omega), if_neg (by omega)]
      exact h.zero i' j (by omega)
    · intro i' k hi'
      dsimp only
      rw [g3 i' k (by omega)]; exact h.same i' k (by omega)
    · intro i' hi'
      dsimp only
      by_cases e : i' = i
      · subst e
        have hz : ∀ k, k < cols → rest (st.rank + 1) A (set2 t.l i' st.rank r) q' i' k = 0 := by
          intro k hk
          rw [hsum i' k hk, set2_same, hnew k hk]
          field_simp
          ring
        rw [dot_congr cols _ (fun _ => 0) _ (fun _ => 0) hz hz]
        have : dot cols (fun _ => (0 : K)) (fun _ => 0) = 0 := by simp [dot]
        rw [this]
        positivity
      · have hz : ∀ k, k < cols → rest (st.rank + 1) A (set2 t.l i st.rank r) q' i' k = rest st.rank A st.l st.q i' k := by
          intro k hk
          rw [hsum i' k hk, hold i' (by omega), set2_ne_row _ _ e, g5', if_neg (by omega), h.zero i' st.rank (by omega), zero_mul, sub_zero]
        rw [dot_congr cols _ _ _ _ hz hz]
        exact h.res i' (by omega)
    · intro k hk
      dsimp only at hk ⊢
      by_cases e : k = st.rank
      · refine ⟨i, by omega, by rw [hl, if_pos ⟨rfl, e⟩]; exact hrp, fun k' hk' => ?_⟩
        rw [hl, if_neg (by omega), if_neg (by omega)]
        exact h.zero i k' (by omega)
      · obtain ⟨i', e1, e2, e3⟩ := h.lead k (by omega)
        refine ⟨i', by omega, by rw [hl, if_neg (by omega), if_neg (by omega)]; exact e2, fun k' hk' => ?_⟩
        rw [hl, if_neg (by omega), if_neg (by omega)]; exact e3 k' hk'
    · intro e k hk
      dsimp only at e ⊢
      by_cases ek : k = i
      · rw [hl, if_pos ⟨ek, by omega⟩]; exact hrp
      · rw [hl, if_neg (by omega), if_neg (by omega)]
        exact h.full (by omega) k (by omega)

theorem lq_inv (tol : K) (htol : 0 ≤ tol) (sqrt : K → K) (hsq : SqrtOk sqrt) (rows cols : Nat) (A q : Nat → Nat → K) :
    LQInv tol cols A rows (zMatDecompLQDST tol sqrt rows cols A q) :=
  forUp_inv (lo := 0) (hi := rows) (lqStep tol sqrt cols) _ (fun i st => LQInv tol cols A i st) (Nat.zero_le _)
    ⟨le_refl _, Nat.zero_le _, fun i j hi => absurd hi (by simp), fun _ _ _ => rfl, fun _ _ _ => rfl, fun i' h => absurd h (by simp),
      fun k hk => absurd hk (by simp), fun _ k hk => absurd hk (by simp)⟩
    (fun i t _ _ h => lqStep_inv tol htol sqrt hsq cols A i t h)

/-- An LQ decomposition of rank `r`: at most as many as rows or columns, orthonormal rows of `q`, `l` lower triangular with nothing from the column `r` on, independent columns of `l`, and each row of `A`
the combination of the rows of `q` by the row of `l`, up to a remainder of norm `tol`. -/
structure IsLQ (tol : K) (rows cols : Nat) (A l q : Nat → Nat → K) (r : Nat) : Prop where
  le_row : r ≤ rows
  le_col : r ≤ cols
  orth : Orthonormal r cols q
  lower : ∀ i j, i < j → l i j = 0
  thin : ∀ i j, r ≤ j → l i j = 0
  indep : ¬ ColsDependent rows r l
  full : r = rows → ∀ k, k < rows → 0 < l k k
  prod : ∀ i, i < rows → ∑ k ∈ range cols, (A i k - ∑ j ∈ range r, l i j * q j k) ^ 2 ≤ tol ^ 2

/-- Columns whose leading elements stand in different rows are independent. -/
theorem indep_of_lead (rows r : Nat) (l : Nat → Nat → K) (h : ∀ k, k < r → ∃ i, i < rows ∧ 0 < l i k ∧ ∀ k', k < k' → l i k' = 0) :
    ¬ ColsDependent rows r l := by
  rintro ⟨z, ⟨j, hj, hzj⟩, h0⟩
  have key : ∀ k, k ≤ r → ∀ j, j < k → z j = 0 := by
    intro k
    induction k with
    | zero => intro _ j hj; omega
    | succ k ih =>
      intro hk j hj
      by_cases e : j = k
      · subst e
        obtain ⟨i, hi, h1, h2⟩ := h j (by omega)
        have h3 := h0 i hi
        unfold Ax at h3
        rw [sum_eq_single j (fun b hb hne => ?_) (fun hn => absurd (mem_range.2 (by omega)) hn)] at h3
        · rcases mul_eq_zero.1 h3 with h4 | h4
          · exact absurd h4 h1.ne'
          · exact h4
        · rcases Nat.lt_or_ge b j with g | g
          · rw [ih (by omega) b g, mul_zero]
          · rw [h2 b (by omega), zero_mul]
      · exact ih (by omega) j (by omega)
  exact hzj (key r (le_refl _) j hj)

/-- C77, `zMatDecompLQ`: for every matrix, an LQ decomposition up to the tolerance by which rows are dropped. -/
theorem zMatDecompLQ_spec (tol : K) (htol : 0 ≤ tol) (sqrt : K → K) (hsq : SqrtOk sqrt) (rows cols : Nat) (A q : Nat → Nat → K) :
    ∃ st, zMatDecompLQ tol sqrt rows cols A q false = .ok st ∧ IsLQ tol rows cols A st.l st.q st.rank := by
  refine ⟨_, rfl, ?_⟩
  have h := lq_inv tol htol sqrt hsq rows cols A q
  generalize zMatDecompLQDST tol sqrt rows cols A q = st at h ⊢
  refine ⟨h.le_row, h.le_col, h.orth, fun i j hij => h.zero i j (by omega), fun i j hj => h.zero i j (by omega), indep_of_lead rows st.rank st.l h.lead, h.full, fun i hi => ?_⟩
  have := h.res i hi
  unfold dot rest at this
  simp only [← pow_two] at this
  exact this

/-- C77 in exact arithmetic: the product is the matrix. -/
theorem zMatDecompLQ_exact (sqrt : K → K) (hsq : SqrtOk sqrt) (rows cols : Nat) (A q : Nat → Nat → K) :
    ∃ st, zMatDecompLQ 0 sqrt rows cols A q false = .ok st ∧ IsLQ 0 rows cols A st.l st.q st.rank ∧
      ∀ i k, i < rows → k < cols → A i k = ∑ j ∈ range st.rank, st.l i j * st.q j k := by
  obtain ⟨st, e, h⟩ := zMatDecompLQ_spec 0 (le_refl _) sqrt hsq rows cols A q
  refine ⟨st, e, h, fun i k hi hk => ?_⟩
  have h1 := h.prod i hi
  rw [zero_pow two_ne_zero] at h1
  have h2 := (sum_eq_zero_iff_of_nonneg (fun k _ => sq_nonneg (A i k - ∑ j ∈ range st.rank, st.l i j * st.q j k))).1
    (le_antisymm h1 (sum_nonneg fun k _ => sq_nonneg _)) k (mem_range.2 hk)
  exact sub_eq_zero.1 (pow_eq_zero_iff two_ne_zero |>.1 h2)

/-- C77, `zMatDecompQR`: orthonormal columns and an upper triangular factor. -/
theorem zMatDecompQR_spec (tol : K) (htol : 0 ≤ tol) (sqrt : K → K) (hsq : SqrtOk sqrt) (rows cols : Nat) (A : Nat → Nat → K) :
    ∃ q r rank, zMatDecompQR tol sqrt rows cols A false = .ok (q, r, rank) ∧ rank ≤ rows ∧ rank ≤ cols ∧
      (∀ i j, i < rank → j < rank → ∑ k ∈ range rows, q k i * q k j = if i = j then 1 else 0) ∧
      (∀ i j, j < i → r i j = 0) ∧
      ∀ j, j < cols → ∑ k ∈ range rows, (A k j - ∑ i ∈ range rank, q k i * r i j) ^ 2 ≤ tol ^ 2 := by
  obtain ⟨st, e, h⟩ := zMatDecompLQ_spec tol htol sqrt hsq cols rows (fun i j => A j i) (fun _ _ => 0)
  simp only [zMatDecompLQ, Bool.false_eq_true, if_false, Res.ok.injEq] at e
  refine ⟨_, _, _, rfl, ?_⟩
  rw [e]
  refine ⟨h.le_col, h.le_row, h.orth, fun i j hij => h.lower j i hij, fun j hj => ?_⟩
  have := h.prod j hj
  simpa only [mul_comm] using this

/-- The header of zm_le.h lets the triangular matrix be a null pointer, to compute the orthogonal one only; the code writes through it. -/
theorem zMatDecompLQ_null_violated (tol : K) (sqrt : K → K) (rows cols : Nat) (A q : Nat → Nat → K) :
    zMatDecompLQ tol sqrt rows cols A q true = .ub ∧ zMatDecompQR tol sqrt rows cols A true = .ub := ⟨rfl, rfl⟩

theorem real_sqrt_ok : SqrtOk Real.sqrt := fun x hx => ⟨Real.sqrt_nonneg x, Real.mul_self_sqrt hx⟩

/-- A run of the model on a matrix of rank two with rational norms. -/
example : (match zMatDecompLQ (K := ℚ) 0 (fun x => if x = 25 then 5 else 0) 3 2 (fun i j => if i = 0 then (if j = 0 then 3 else 4) else if i = 1 then (if j = 0 then 6 else 8) else (if j = 0 then 7 else 1)) (fun _ _ => 0) false with
    | .ok st => decide (st.rank = 2 ∧ st.l 1 0 = 10 ∧ st.l 2 0 = 5 ∧ st.l 2 1 = 5 ∧ st.q 1 0 = 4 / 5)
    | _ => false) = true := by decide +kernel

example : ∃ st, zMatDecompLQ 0 Real.sqrt 2 3 (fun i j => (i : ℝ) + j) (fun _ _ => 0) false = .ok st ∧ IsLQ 0 2 3 (fun i j => (i : ℝ) + j) st.l st.q st.rank :=
  zMatDecompLQ_spec 0 (le_refl _) _ real_sqrt_ok 2 3 _ _

/-! ## Householder's method -/

theorem zSgn_sq (x : K) : zSgn x * zSgn x = 1 := by unfold zSgn; split <;> ring

/-- The reflection vector, nothing below `i`. -/
def hhU (cols i : Nat) (u : Nat → K) (k : Nat) : K := if i ≤ k ∧ k < cols then u k else 0

theorem sum_hhU (cols i : Nat) (hi : i ≤ cols) (u v : Nat → K) : forUp i cols (fun k x => x + v k * u k) 0 = ∑ k ∈ range cols, v k * hhU cols i u k := by
  rw [forUp_add i cols (fun k => v k * u k) 0 hi, zero_add]
  unfold hhU
  simp only [mul_ite, mul_zero]
  rw [← sum_filter]
  refine sum_congr ?_ fun _ _ => rfl
  ext k; simp only [mem_Ico, mem_filter, mem_range]; omega

theorem hhRow_spec (cols i : Nat) (hi : i ≤ cols) (ninv : K) (u : Nat → K) (j : Nat) (m : Nat → Nat → K) (a k : Nat) :
    hhRow cols i ninv u j m a k = if a = j then m a k - ninv * hhU cols i u k * ∑ k' ∈ range cols, m a k' * hhU cols i u k' else m a k := by
  unfold hhRow
  rw [sum_hhU cols i hi u (m j)]
  rw [forUp_row j (fun k m' => m' j k + u k * (-ninv * ∑ k ∈ range cols, m j k * hhU cols i u k)) m
    (fun k => m j k + u k * (-ninv * ∑ k ∈ range cols, m j k * hhU cols i u k)) (fun k t h1 h2 h3 => by rw [h3 j k (by omega)])]
  beta_reduce
  by_cases e : a = j
  · subst e
    by_cases g : i ≤ k ∧ k < cols
    · rw [if_pos ⟨rfl, g⟩, if_pos rfl, show hhU cols i u k = u k from if_pos g]; ring
    · rw [if_neg (by tauto), if_pos rfl, show hhU cols i u k = 0 from if_neg g]; ring
  · rw [if_neg (by tauto), if_neg e]

theorem hhCol_spec (cols i : Nat) (hi : i ≤ cols) (ninv : K) (u : Nat → K) (j : Nat) (q : Nat → Nat → K) (k a : Nat) :
    hhCol cols i ninv u j q k a = if a = j then q k a - ninv * hhU cols i u k * ∑ k' ∈ range cols, q k' a * hhU cols i u k' else q k a := by
  unfold hhCol
  rw [sum_hhU cols i hi u (fun k => q k j)]
  rw [forUp_col j (fun k q' => q' k j + u k * (-ninv * ∑ k ∈ range cols, q k j * hhU cols i u k)) q
    (fun k => q k j + u k * (-ninv * ∑ k ∈ range cols, q k j * hhU cols i u k)) (fun k t h1 h2 h3 => by rw [h3 k j (by omega)])]
  beta_reduce
  by_cases e : a = j
  · subst e
    by_cases g : i ≤ k ∧ k < cols
    · rw [if_pos ⟨rfl, g⟩, if_pos rfl, show hhU cols i u k = u k from if_pos g]; ring
    · rw [if_neg (by tauto), if_pos rfl, show hhU cols i u k = 0 from if_neg g]; ring
  · rw [if_neg (by tauto), if_neg e]

theorem hhCols_spec (cols i : Nat) (hi : i ≤ cols) (ninv : K) (u : Nat → K) (q : Nat → Nat → K) (k a : Nat) (ha : a < cols) :
    forUp 0 cols (hhCol cols i ninv u) q k a = q k a - ninv * hhU cols i u k * ∑ k' ∈ range cols, q k' a * hhU cols i u k' := by
  have h := forUp_inv (lo := 0) (hi := cols) (hhCol cols i ninv u) q
    (fun s (t : Nat → Nat → K) => ∀ k a, t k a = if a < s then q k a - ninv * hhU cols i u k * ∑ k' ∈ range cols, q k' a * hhU cols i u k' else q k a)
    (Nat.zero_le _) (by simp)
    (by
      intro s t _ hs h k a
      rw [hhCol_spec cols i hi]
      by_cases e : a = s
      · rw [if_pos e, if_pos (by omega), h k a, if_neg (by omega)]
        congr 2
        exact sum_congr rfl fun k' _ => by rw [h k' a, if_neg (by omega)]
      · rw [if_neg e, h k a]
        by_cases g : a < s
        · rw [if_pos g, if_pos (by omega)]
        · rw [if_neg g, if_neg (by omega)])
  rw [h k a, if_pos ha]

theorem hhRows_spec (rows cols i : Nat) (hr : i + 1 ≤ rows) (hi : i ≤ cols) (ninv : K) (u : Nat → K) (m : Nat → Nat → K) (a k : Nat) :
    forDown (i+1) rows (hhRow cols i ninv u) m a k =
      if i < a ∧ a < rows then m a k - ninv * hhU cols i u k * ∑ k' ∈ range cols, m a k' * hhU cols i u k' else m a k := by
  have h := forDown_inv (lo := i+1) (hi := rows) (hhRow cols i ninv u) m
    (fun s (t : Nat → Nat → K) => ∀ a k, t a k = if s ≤ a ∧ a < rows then m a k - ninv * hhU cols i u k * ∑ k' ∈ range cols, m a k' * hhU cols i u k' else m a k)
    hr (by intro a k; rw [if_neg (by omega)])
    (by
      intro s t h1 h2 h a k
      rw [hhRow_spec cols i hi]
      by_cases e : a = s
      · rw [if_pos e, if_pos (by omega), h a k, if_neg (by omega)]
        congr 2
        exact sum_congr rfl fun k' _ => by rw [h a k', if_neg (by omega)]
      · rw [if_neg e, h a k]
        by_cases g : s + 1 ≤ a ∧ a < rows
        · rw [if_pos g, if_pos (by omega)]
        · rw [if_neg g, if_neg (by omega)])
  exact h a k

/-- A reflection of orthonormal rows. -/
theorem reflect_orth (n : Nat) (q q' : Nat → Nat → K) (U : Nat → K) (ν : K) (h : Orthonormal n n q) (hν : ν * ∑ k ∈ range n, U k * U k = 2)
    (hq : ∀ a l, a < n → l < n → q' a l = q a l - ν * U a * ∑ k ∈ range n, q k l * U k) : Orthonormal n n q' := by
  obtain ⟨v, hv⟩ : ∃ v : Nat → K, ∀ l, v l = ∑ k ∈ range n, q k l * U k := ⟨_, fun _ => rfl⟩
  have h1 : ∀ a, a < n → ∑ l ∈ range n, q a l * v l = U a := by
    intro a ha
    have : ∑ l ∈ range n, q a l * v l = ∑ k' ∈ range n, U k' * dot n (q a) (q k') := by
      unfold dot
      simp only [hv, mul_sum]
      rw [sum_comm]
      exact sum_congr rfl fun i _ => sum_congr rfl fun j _ => by ring
    rw [this, sum_congr rfl (fun k' hk' => by rw [h a k' ha (mem_range.1 hk')])]
    simp [ha]
  have h2 : ∑ l ∈ range n, v l * v l = ∑ k ∈ range n, U k * U k := by
    have e : ∀ l, v l * v l = ∑ k ∈ range n, U k * (q k l * v l) := by
      intro l
      conv_lhs => rw [hv l, sum_mul, ← hv l]
      exact sum_congr rfl fun k _ => by ring
    simp only [e]
    rw [sum_comm]
    refine sum_congr rfl fun k hk => ?_
    rw [← mul_sum, h1 k (mem_range.1 hk)]
  intro a b ha hb
  rw [← h a b ha hb]
  have e : dot n (q' a) (q' b) = dot n (q a) (q b) - ν * U b * ∑ l ∈ range n, q a l * v l - ν * U a * ∑ l ∈ range n, q b l * v l +
      ν * ν * U a * U b * ∑ l ∈ range n, v l * v l := by
    unfold dot
    rw [mul_sum, mul_sum, mul_sum, ← sum_sub_distrib, ← sum_sub_distrib, ← sum_add_distrib]
    exact sum_congr rfl fun l hl => by rw [hq a l ha (mem_range.1 hl), hq b l hb (mem_range.1 hl), ← hv]; ring
  rw [e, h1 a ha, h1 b hb, h2]
  linear_combination ν * U a * U b * hν

/-- The product is not changed when both factors are reflected. -/
theorem reflect_prod (n : Nat) (m q U : Nat → K) (ν : K) (hν : ν * ∑ k ∈ range n, U k * U k = 2) :
    ∑ k ∈ range n, (m k - ν * U k * ∑ k' ∈ range n, m k' * U k') * (q k - ν * U k * ∑ k' ∈ range n, q k' * U k') = ∑ k ∈ range n, m k * q k := by
  obtain ⟨μ, hμ⟩ : ∃ μ, μ = ∑ k' ∈ range n, m k' * U k' := ⟨_, rfl⟩
  obtain ⟨v, hv⟩ : ∃ v, v = ∑ k' ∈ range n, q k' * U k' := ⟨_, rfl⟩
  rw [← hμ, ← hv]
  have e : ∑ k ∈ range n, (m k - ν * U k * μ) * (q k - ν * U k * v) = ∑ k ∈ range n, m k * q k - ν * v * (∑ k ∈ range n, m k * U k) - ν * μ * (∑ k ∈ range n, q k * U k) +
      ν * ν * μ * v * ∑ k ∈ range n, U k * U k := by
    rw [mul_sum, mul_sum, mul_sum, ← sum_sub_distrib, ← sum_sub_distrib, ← sum_add_distrib]
    exact sum_congr rfl fun k _ => by ring
  rw [e, ← hμ, ← hv]
  linear_combination ν * μ * v * hν

/-- State of Householder's method after the turns below `i`. -/
structure HHInv (rows cols : Nat) (A : Nat → Nat → K) (i : Nat) (st : (Nat → Nat → K) × (Nat → Nat → K) × Nat) : Prop where
  orth : Orthonormal cols cols st.2.1
  lower : ∀ a k, a < i → a < k → k < cols → st.1 a k = 0
  prod : ∀ a l, a < rows → l < cols → ∑ k ∈ range cols, st.1 a k * st.2.1 k l = A a l
  rank : st.2.2 ≤ i

theorem hhStep_inv (sqrt : K → K) (hsq : SqrtOk sqrt) (rows cols : Nat) (A : Nat → Nat → K) (i : Nat) (hir : i < rows) (hic : i < cols)
    (st : (Nat → Nat → K) × (Nat → Nat → K) × Nat) (h : HHInv rows cols A i st) : HHInv rows cols A (i+1) (hhStep 0 sqrt rows cols i st) := by
  obtain ⟨m, q, rank⟩ := st
  unfold hhStep
  dsimp only
  have hn : forUp i cols (fun k x => x + m i k * m i k) 0 = ∑ k ∈ Ico i cols, m i k * m i k := by
    rw [forUp_add i cols (fun k => m i k * m i k) 0 hic.le, zero_add]
  rw [hn]
  have hn0 : 0 ≤ ∑ k ∈ Ico i cols, m i k * m i k := sum_nonneg fun k _ => mul_self_nonneg _
  obtain ⟨s1, s2⟩ := hsq _ hn0
  generalize hg : sqrt (∑ k ∈ Ico i cols, m i k * m i k) = r at s1 s2 ⊢
  have hx : zSgn (m i i) * m i i = |m i i| := by
    unfold zSgn; split
    · rw [one_mul, abs_of_nonneg (by assumption)]
    · rw [abs_of_neg (not_le.1 (by assumption))]; ring
  obtain ⟨hI1, hI2, hI3, hI4⟩ := h
  dsimp only at hI1 hI2 hI3 hI4
  by_cases ht : |(-zSgn (m i i) * r)| ≤ 0 ∨ |(-zSgn (m i i) * r - m i i)| ≤ 0
  · rw [if_pos ht]
    have hr0 : r = 0 := by
      rcases ht with ht | ht
      · have := abs_nonpos_iff.1 ht
        have h2 := zSgn_sq (m i i)
        linear_combination (-zSgn (m i i)) * this - r * h2
      · have := abs_nonpos_iff.1 ht
        have h2 := zSgn_sq (m i i)
        have h3 : r + |m i i| = 0 := by rw [← hx]; linear_combination (-zSgn (m i i)) * this - r * h2
        have := abs_nonneg (m i i)
        linarith
    refine ⟨hI1, fun a k ha hk hkc => ?_, hI3, by dsimp only; omega⟩
    dsimp only
    by_cases e : a = i
    · subst e
      rw [hr0, mul_zero] at s2
      exact mul_self_eq_zero.1 ((sum_eq_zero_iff_of_nonneg (fun k _ => mul_self_nonneg (m a k))).1 s2.symm k (mem_Ico.2 ⟨by omega, hkc⟩))
    · exact hI2 a k (by omega) hk hkc
  · rw [if_neg ht]
    push Not at ht
    generalize hs : -zSgn (m i i) * r = s at ht ⊢
    have hs0 : s ≠ 0 := abs_pos.1 ht.1
    have hds0 : s - m i i ≠ 0 := abs_pos.1 ht.2
    have hss : s * s = ∑ k ∈ Ico i cols, m i k * m i k := by rw [← s2, ← hs]; linear_combination r * r * zSgn_sq (m i i)
    generalize hν : 1 / (s * (s - m i i)) = ν
    have hν1 : ν * (s * (s - m i i)) = 1 := by rw [← hν]; field_simp
    set m1 := set2 m i i (-(s - m i i)) with hm1
    have hm1i : ∀ k, k ≠ i → m1 i k = m i k := fun k hk => set2_ne_col _ _ hk
    have hm1ii : m1 i i = m i i - s := by rw [hm1, set2_same]; ring
    have hm1a : ∀ a k, a ≠ i → m1 a k = m a k := fun a k ha => set2_ne_row _ _ ha
    set U := hhU cols i (m1 i) with hU
    have hUlt : ∀ k, k < i → U k = 0 := fun k hk => if_neg (by omega)
    have hUi : U i = m i i - s := by rw [← hm1ii]; exact if_pos ⟨le_refl _, hic⟩
    have hUgt : ∀ k, i < k → k < cols → U k = m i k := fun k h1 h2 => by rw [← hm1i k (by omega)]; exact if_pos ⟨h1.le, h2⟩
    have hsplit : ∀ f : Nat → K, (∀ k, k < i → f k = 0) → ∑ k ∈ range cols, f k = f i + ∑ k ∈ Ico (i+1) cols, f k := by
      intro f hf
      rw [range_eq_Ico, ← sum_Ico_consecutive f (Nat.zero_le i) hic.le, sum_eq_zero (fun k hk => hf k (mem_Ico.1 hk).2), zero_add, sum_eq_sum_Ico_succ_bot hic]
    have hsq' : s * s = m i i * m i i + ∑ k ∈ Ico (i+1) cols, m i k * m i k := by rw [hss, sum_eq_sum_Ico_succ_bot hic]
    have hUU : ∑ k ∈ range cols, U k * U k = 2 * (s * (s - m i i)) := by
      rw [hsplit _ (fun k hk => by rw [hUlt k hk, zero_mul]), hUi,
        sum_congr rfl (fun k hk => by rw [hUgt k (by have := mem_Ico.1 hk; omega) (mem_Ico.1 hk).2])]
      linear_combination -hsq'
    have hmU : ∑ k ∈ range cols, m i k * U k = s * (s - m i i) := by
      rw [hsplit _ (fun k hk => by rw [hUlt k hk, mul_zero]), hUi,
        sum_congr rfl (fun k hk => by rw [hUgt k (by have := mem_Ico.1 hk; omega) (mem_Ico.1 hk).2])]
      linear_combination -hsq'
    -- the new matrices
    have hq' : ∀ k l, l < cols → forUp 0 cols (hhCol cols i ν (m1 i)) q k l = q k l - ν * U k * ∑ k' ∈ range cols, q k' l * U k' :=
      fun k l hl => hhCols_spec cols i hic.le ν (m1 i) q k l hl
    generalize forUp 0 cols (hhCol cols i ν (m1 i)) q = q' at hq' ⊢
    have hm2 : ∀ a k, a < rows → a ≠ i → forDown (i+1) rows (hhRow cols i ν (m1 i)) m1 a k = m a k - ν * U k * ∑ k' ∈ range cols, m a k' * U k' := by
      intro a k ha hai
      rw [hhRows_spec rows cols i hir hic.le]
      by_cases g : i < a ∧ a < rows
      · rw [if_pos g, hm1a a k hai]
        congr 2
        exact sum_congr rfl fun k' _ => by rw [hm1a a k' hai]
      · rw [if_neg g, hm1a a k hai, sum_eq_zero (fun k' hk' => ?_), mul_zero, sub_zero]
        rcases Nat.lt_or_ge k' i with e | e
        · rw [hUlt k' e, mul_zero]
        · rw [hI2 a k' (by omega) (by omega) (mem_range.1 hk'), zero_mul]
    have hm2i : ∀ k, forDown (i+1) rows (hhRow cols i ν (m1 i)) m1 i k = m1 i k := by
      intro k; rw [hhRows_spec rows cols i hir hic.le, if_neg (by omega)]
    generalize forDown (i+1) rows (hhRow cols i ν (m1 i)) m1 = m2 at hm2 hm2i ⊢
    rw [forUp_row i (fun _ _ => (0 : K)) (set2 m2 i i s) (fun _ => 0) (fun _ _ _ _ _ => rfl)]
    have hm3 : ∀ a k, a < rows → k < cols → (if a = i ∧ i + 1 ≤ k ∧ k < cols then 0 else set2 m2 i i s a k) = m a k - ν * U k * ∑ k' ∈ range cols, m a k' * U k' := by
      intro a k ha hk
      by_cases e : a = i
      · subst e
        rw [hmU]
        rcases Nat.lt_trichotomy k a with g | g | g
        · rw [if_neg (by omega), set2_ne_col _ _ (by omega), hm2i, hm1i k (by omega), hUlt k g]; ring
        · subst g; rw [if_neg (by omega), set2_same, hUi]; linear_combination (m k k - s) * hν1
        · rw [if_pos ⟨rfl, by omega, hk⟩, hUgt k g hk]; linear_combination (m a k) * hν1
      · rw [if_neg (by tauto), set2_ne_row _ _ e, hm2 a k ha e]
    have hνU : ν * ∑ k ∈ range cols, U k * U k = 2 := by rw [hUU]; linear_combination 2 * hν1
    refine ⟨?_, fun a k ha hk hkc => ?_, fun a l ha hl => ?_, by dsimp only; omega⟩
    · exact reflect_orth cols q q' U ν hI1 hνU (fun a l _ hl => hq' a l hl)
    · dsimp only
      by_cases e : a = i
      · rw [if_pos ⟨e, by omega, hkc⟩]
      · rw [hm3 a k (by omega) hkc, hI2 a k (by omega) hk hkc, sum_eq_zero (fun k' hk' => ?_), mul_zero, sub_zero]
        rcases Nat.lt_or_ge k' i with g | g
        · rw [hUlt k' g, mul_zero]
        · rw [hI2 a k' (by omega) (by omega) (mem_range.1 hk'), zero_mul]
    · dsimp only
      rw [← hI3 a l ha hl, ← reflect_prod cols (m a) (fun k => q k l) U ν hνU]
      exact sum_congr rfl fun k hk => by rw [hm3 a k ha (mem_range.1 hk), hq' k l hl]

theorem hh_inv (sqrt : K → K) (hsq : SqrtOk sqrt) (rows cols : Nat) (A : Nat → Nat → K) :
    HHInv rows cols A (min rows cols) (householderDST 0 sqrt rows cols A) := by
  refine forUp_inv (lo := 0) (hi := min rows cols) (hhStep 0 sqrt rows cols) _ (fun i st => HHInv rows cols A i st) (Nat.zero_le _)
    ⟨fun i j hi hj => ?_, fun a k ha => absurd ha (by simp), fun a l ha hl => ?_, le_refl _⟩
    (fun i t _ hi h => hhStep_inv sqrt hsq rows cols A i (by omega) (by omega) t h)
  · simp [dot, hi]; intro h; omega
  · simp [hl]

/-- C77, Householder's method: the full matrices, of which parts are handed out, are a lower triangular matrix and an orthogonal one, and their product is the given matrix. -/
theorem householder_full (sqrt : K → K) (hsq : SqrtOk sqrt) (rows cols : Nat) (A : Nat → Nat → K) :
    let st := householderDST 0 sqrt rows cols A
    Orthonormal cols cols st.2.1 ∧ (∀ i j, i < rows → j < cols → i < j → st.1 i j = 0) ∧
      ∀ i j, i < rows → j < cols → ∑ k ∈ range cols, st.1 i k * st.2.1 k j = A i j := by
  have h := hh_inv sqrt hsq rows cols A
  exact ⟨h.orth, fun i j hi hj hij => h.lower i j (by omega) hij hj, h.prod⟩

/-- C77 for Householder's method when no row was skipped: the matrices handed out are an LQ decomposition, and the null space matrix has orthonormal columns which the given matrix sends to zero. -/
theorem zMatDecompLQNull_spec_partial (sqrt : K → K) (hsq : SqrtOk sqrt) (rows cols : Nat) (A : Nat → Nat → K) (hpos : 0 < min rows cols)
    (hfull : (householderDST 0 sqrt rows cols A).2.2 = min rows cols) :
    ∃ l q qnull, zMatDecompLQ_Householder 0 sqrt rows cols A = .ok (l, q, min rows cols) ∧ zMatDecompLQNull 0 sqrt rows cols A = .ok (l, q, qnull, min rows cols) ∧
      Orthonormal (min rows cols) cols q ∧ (∀ i j, i < rows → j < cols → i < j → l i j = 0) ∧
      (∀ i j, i < rows → j < cols → ∑ k ∈ range (min rows cols), l i k * q k j = A i j) ∧
      (∀ i j, i < rows → j < cols - min rows cols → ∑ k ∈ range cols, A i k * qnull k j = 0) ∧
      ∀ i j, i < cols - min rows cols → j < cols - min rows cols → ∑ k ∈ range cols, qnull k i * qnull k j = if i = j then 1 else 0 := by
  have h := hh_inv sqrt hsq rows cols A
  unfold zMatDecompLQ_Householder zMatDecompLQNull
  generalize householderDST 0 sqrt rows cols A = st at h hfull ⊢
  obtain ⟨m, q, rank⟩ := st
  dsimp only at hfull ⊢
  subst hfull
  obtain ⟨h1, h2, h3, -⟩ := h
  dsimp only at h1 h2 h3
  have hz : ∀ i k, i < rows → min rows cols ≤ k → k < cols → m i k = 0 := fun i k hi hk hkc => h2 i k (by omega) (by omega) hkc
  rw [if_neg (by omega), if_neg (by omega)]
  refine ⟨_, _, _, rfl, rfl, fun i j hi hj => ?_, fun i j hi hj hij => ?_, fun i j hi hj => ?_, fun i j hi hj => ?_, fun i j hi hj => ?_⟩
  · beta_reduce
    rw [dot_congr cols _ (q i) _ (q j) (fun k _ => if_pos hi) (fun k _ => if_pos hj)]
    exact h1 i j (by omega) (by omega)
  · beta_reduce
    split
    · exact h2 i j (by omega) hij hj
    · rfl
  · rw [← h3 i j hi hj, range_eq_Ico, range_eq_Ico, ← sum_Ico_consecutive _ (Nat.zero_le (min rows cols)) (Nat.min_le_right rows cols)]
    rw [sum_eq_zero (s := Ico (min rows cols) cols) (fun k hk => by rw [hz i k hi (mem_Ico.1 hk).1 (mem_Ico.1 hk).2, zero_mul]), add_zero]
    exact sum_congr rfl fun k hk => by rw [if_pos (mem_Ico.1 hk).2, if_pos (mem_Ico.1 hk).2]
  · have e : ∑ k ∈ range cols, A i k * q (min rows cols + j) k = ∑ k' ∈ range cols, m i k' * dot cols (q k') (q (min rows cols + j)) := by
      unfold dot
      simp only [mul_sum]
      rw [sum_comm]
      refine sum_congr rfl fun k hk => ?_
      rw [← h3 i k hi (mem_range.1 hk), sum_mul]
      exact sum_congr rfl fun k' _ => by ring
    rw [e]
    refine sum_eq_zero fun k' hk' => ?_
    rw [h1 k' _ (mem_range.1 hk') (by omega)]
    by_cases g : k' = min rows cols + j
    · rw [hz i k' hi (by omega) (mem_range.1 hk'), zero_mul]
    · rw [if_neg g, mul_zero]
  · have := h1 (min rows cols + i) (min rows cols + j) (by omega) (by omega)
    unfold dot at this
    rw [this]
    by_cases g : i = j
    · rw [if_pos g, if_pos (by omega)]
    · rw [if_neg g, if_neg (by omega)]

theorem sqrt16 : Real.sqrt 16 = 4 := by rw [show (16 : ℝ) = 4 * 4 by norm_num]; exact Real.sqrt_mul_self (by norm_num)
theorem sqrt25 : Real.sqrt 25 = 5 := by rw [show (25 : ℝ) = 5 * 5 by norm_num]; exact Real.sqrt_mul_self (by norm_num)

/-- The matrix of one row `(3, 4)` is not skipped. -/
example : (householderDST 0 Real.sqrt 1 2 (fun _ j => if j = 0 then 3 else 4)).2.2 = min 1 2 := by
  norm_num [householderDST, hhStep, forUp, forN, zSgn, sqrt25]

/-- C77 is false of Householder's method when a row is skipped: of the matrix with the rows `(0, 0)` and `(3, 4)` the matrices handed out have the product `(0, 0)`, `(3, 0)`. -/
theorem zMatDecompLQ_Householder_violated :
    ∃ l q, zMatDecompLQ_Householder 0 Real.sqrt 2 2 (fun i j => if i = 0 then 0 else if j = 0 then 3 else 4) = .ok (l, q, 1) ∧
      ∑ k ∈ range 1, l 1 k * q k 1 ≠ (4 : ℝ) := by
  have h1 : (householderDST 0 Real.sqrt 2 2 (fun i j => if i = 0 then 0 else if j = 0 then 3 else 4)).2.2 = 1 := by
    norm_num [householderDST, hhStep, forUp, forN, zSgn, sqrt16]
  have h2 : (householderDST 0 Real.sqrt 2 2 (fun i j => if i = 0 then 0 else if j = 0 then 3 else 4)).2.1 0 1 = 0 := by
    norm_num [householderDST, hhStep, forUp, forN, zSgn, sqrt16, set2, hhCol]
  unfold zMatDecompLQ_Householder
  generalize householderDST 0 Real.sqrt 2 2 (fun i j => if i = 0 then 0 else if j = 0 then 3 else 4) = st at h1 h2 ⊢
  obtain ⟨m, q, r⟩ := st
  dsimp only at h1 h2 ⊢
  subst h1
  refine ⟨_, _, rfl, ?_⟩
  rw [sum_range_one, if_pos (by norm_num), if_pos (by norm_num), h2]
  norm_num

end Zm.LE
