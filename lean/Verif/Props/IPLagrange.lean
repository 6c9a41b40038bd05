import Verif.Props.IPSeg
import Verif.Props.LE
import Mathlib.LinearAlgebra.Lagrange
import Mathlib.Algebra.Polynomial.Derivative
import Mathlib.RingTheory.Polynomial.Chebyshev

/-! # Lagrange (C31) and Chebyshev (C79) interpolation -/

set_option linter.unusedSectionVars false

namespace Zm.IP
open Zm Finset Polynomial

section
variable {K : Type*} [Field K] [LinearOrder K] [IsStrictOrderedRing K]

/-! ## Loops as sums and products -/

theorem forUp_prodIf (n : Nat) (c : Nat → Prop) [DecidablePred c] (a : Nat → K) (p0 : K) :
    forUp 0 n (fun j p => if c j then p * a j else p) p0 = p0 * ∏ j ∈ range n, if c j then a j else 1 := by
  induction n with
  | zero => rw [forUp_of_le (le_refl _)]; simp
  | succ n ih =>
    rw [forUp_succ (by omega), ih, prod_range_succ]
    split <;> ring

theorem forUp_sum' (lo hi : Nat) (f : Nat → K) (s : K) (g : Nat → K → K) (hg : ∀ k v, lo ≤ k → k < hi → g k v = v + f k) :
    forUp lo hi g s = s + ∑ k ∈ Ico lo hi, f k := by
  rcases Nat.lt_or_ge hi lo with h | h
  · rw [forUp_of_le h.le, Ico_eq_empty (by omega)]; simp
  · induction hi with
    | zero => rw [forUp_of_le (by omega)]; simp
    | succ hi ih =>
      rcases Nat.lt_or_ge hi lo with h' | h'
      · rw [forUp_of_le (by omega), Ico_eq_empty (by omega)]; simp
      · rw [forUp_succ h', ih (fun k v a b => hg k v a (by omega)) h', hg hi _ h' (by omega), sum_Ico_succ_top h']; ring

/-- A sum over ordered pairs of different indices, as a sum over `i < j`. -/
theorem sum_pairs (n : Nat) (f : Nat → Nat → K) :
    ∑ i ∈ range n, ∑ j ∈ range n, (if j ≠ i then f i j else 0) = ∑ i ∈ range n, ∑ j ∈ Ico (i+1) n, (f i j + f j i) := by
  induction n with
  | zero => simp
  | succ n ih =>
    have e1 : ∑ i ∈ range (n+1), ∑ j ∈ range (n+1), (if j ≠ i then f i j else 0) =
        ∑ i ∈ range n, ∑ j ∈ range n, (if j ≠ i then f i j else 0) + ∑ i ∈ range n, f i n + ∑ j ∈ range n, f n j := by
      rw [sum_range_succ]
      simp_rw [sum_range_succ _ n]
      rw [sum_add_distrib]
      have a : ∑ i ∈ range n, (if n ≠ i then f i n else 0) = ∑ i ∈ range n, f i n :=
        sum_congr rfl fun i hi => if_pos (by rw [mem_range] at hi; omega)
      have b : ∑ j ∈ range n, (if j ≠ n then f n j else 0) = ∑ j ∈ range n, f n j :=
        sum_congr rfl fun i hi => if_pos (by rw [mem_range] at hi; omega)
      rw [a, b]; simp
    have e2 : ∑ i ∈ range (n+1), ∑ j ∈ Ico (i+1) (n+1), (f i j + f j i) =
        ∑ i ∈ range n, ∑ j ∈ Ico (i+1) n, (f i j + f j i) + ∑ i ∈ range n, (f i n + f n i) := by
      rw [sum_range_succ, Ico_self, sum_empty, add_zero, ← sum_add_distrib]
      refine sum_congr rfl fun i hi => ?_
      rw [mem_range] at hi
      rw [sum_Ico_succ_top (by omega)]
    rw [e1, e2, ih, sum_add_distrib]; ring

/-- A sum over ordered triples of different indices, as a sum over `i < j < k`. -/
theorem sum_triples (n : Nat) (g : Nat → Nat → Nat → K) :
    ∑ i ∈ range n, ∑ j ∈ range n, ∑ k ∈ range n, (if j ≠ i then if k ≠ i ∧ k ≠ j then g i j k else 0 else 0) =
      ∑ i ∈ range n, ∑ j ∈ Ico (i+1) n, ∑ k ∈ Ico (j+1) n,
        (g i j k + g i k j + g j i k + g j k i + g k i j + g k j i) := by
  induction n with
  | zero => simp
  | succ n ih =>
    have hsplit : ∀ i j, i < n → j < n → ∑ k ∈ range (n+1), (if j ≠ i then if k ≠ i ∧ k ≠ j then g i j k else 0 else 0) =
        ∑ k ∈ range n, (if j ≠ i then if k ≠ i ∧ k ≠ j then g i j k else 0 else 0) + (if j ≠ i then g i j n else 0) := by
      intro i j hi hj
      rw [sum_range_succ]
      congr 1
      split
      · exact if_pos ⟨by omega, by omega⟩
      · rfl
    have hlastj : ∀ i, i < n → ∑ k ∈ range (n+1), (if n ≠ i then if k ≠ i ∧ k ≠ n then g i n k else 0 else 0) =
        ∑ k ∈ range n, (if k ≠ i then g i n k else 0) := by
      intro i hi
      rw [sum_range_succ]
      simp only [show n ≠ i by omega, ne_eq, not_false_eq_true, if_true, not_true_eq_false, and_false, if_false, add_zero]
      refine sum_congr rfl fun k hk => ?_
      rw [mem_range] at hk
      simp [show k ≠ n by omega]
    have hlasti : ∀ j, j < n → ∑ k ∈ range (n+1), (if j ≠ n then if k ≠ n ∧ k ≠ j then g n j k else 0 else 0) =
        ∑ k ∈ range n, (if k ≠ j then g n j k else 0) := by
      intro j hj
      rw [sum_range_succ]
      simp only [show j ≠ n by omega, ne_eq, not_false_eq_true, if_true, not_true_eq_false, false_and, if_false, add_zero]
      refine sum_congr rfl fun k hk => ?_
      rw [mem_range] at hk
      simp [show k ≠ n by omega]
    have e1 : ∑ i ∈ range (n+1), ∑ j ∈ range (n+1), ∑ k ∈ range (n+1), (if j ≠ i then if k ≠ i ∧ k ≠ j then g i j k else 0 else 0) =
        ∑ i ∈ range n, ∑ j ∈ range n, ∑ k ∈ range n, (if j ≠ i then if k ≠ i ∧ k ≠ j then g i j k else 0 else 0)
        + ∑ i ∈ range n, ∑ j ∈ range n, (if j ≠ i then g i j n + g i n j + g n i j else 0) := by
      rw [sum_range_succ]
      have a : ∀ i ∈ range n, ∑ j ∈ range (n+1), ∑ k ∈ range (n+1), (if j ≠ i then if k ≠ i ∧ k ≠ j then g i j k else 0 else 0) =
          ∑ j ∈ range n, ∑ k ∈ range n, (if j ≠ i then if k ≠ i ∧ k ≠ j then g i j k else 0 else 0)
          + ∑ j ∈ range n, (if j ≠ i then g i j n + g i n j else 0) := by
        intro i hi
        rw [mem_range] at hi
        rw [sum_range_succ, hlastj i hi, sum_congr rfl (fun j hj => hsplit i j hi (mem_range.mp hj)), sum_add_distrib, add_assoc, ← sum_add_distrib]
        congr 1
        refine sum_congr rfl fun j _ => ?_
        split <;> simp
      rw [sum_congr rfl a, sum_add_distrib]
      have b : ∑ j ∈ range (n+1), ∑ k ∈ range (n+1), (if j ≠ n then if k ≠ n ∧ k ≠ j then g n j k else 0 else 0) =
          ∑ j ∈ range n, ∑ k ∈ range n, (if k ≠ j then g n j k else 0) := by
        rw [sum_range_succ, sum_congr rfl (fun j hj => hlasti j (mem_range.mp hj))]
        simp
      rw [b, add_assoc, ← sum_add_distrib]
      congr 1
      refine sum_congr rfl fun i _ => ?_
      rw [← sum_add_distrib]
      refine sum_congr rfl fun j _ => ?_
      split <;> simp
    have e2 : ∑ i ∈ range (n+1), ∑ j ∈ Ico (i+1) (n+1), ∑ k ∈ Ico (j+1) (n+1), (g i j k + g i k j + g j i k + g j k i + g k i j + g k j i) =
        ∑ i ∈ range n, ∑ j ∈ Ico (i+1) n, ∑ k ∈ Ico (j+1) n, (g i j k + g i k j + g j i k + g j k i + g k i j + g k j i)
        + ∑ i ∈ range n, ∑ j ∈ Ico (i+1) n, (g i j n + g i n j + g j i n + g j n i + g n i j + g n j i) := by
      rw [sum_range_succ, Ico_self, sum_empty, add_zero, ← sum_add_distrib]
      refine sum_congr rfl fun i hi => ?_
      rw [mem_range] at hi
      rw [sum_Ico_succ_top (by omega), Ico_self, sum_empty, add_zero, ← sum_add_distrib]
      refine sum_congr rfl fun j hj => ?_
      rw [mem_Ico] at hj
      rw [sum_Ico_succ_top (by omega)]
    rw [e1, e2, ih, sum_pairs]
    congr 1
    refine sum_congr rfl fun i _ => sum_congr rfl fun j _ => ?_
    ring

/-! ## Lagrange interpolation -/

/-- The product of the factors `X - T j` over the indices that satisfy `c`. -/
noncomputable def nprod (n : Nat) (T : Nat → K) (c : Nat → Prop) [DecidablePred c] : K[X] :=
  ∏ j ∈ range n, if c j then X - C (T j) else 1

theorem eval_nprod (n : Nat) (T : Nat → K) (c : Nat → Prop) [DecidablePred c] (t : K) :
    (nprod n T c).eval t = ∏ j ∈ range n, if c j then t - T j else 1 := by
  unfold nprod
  rw [eval_prod]
  refine prod_congr rfl fun j _ => ?_
  split <;> simp

theorem derivative_nprod (n : Nat) (T : Nat → K) (c : Nat → Prop) [DecidablePred c] :
    derivative (nprod n T c) = ∑ a ∈ range n, if c a then nprod n T (fun b => c b ∧ b ≠ a) else 0 := by
  unfold nprod
  rw [derivative_prod_finset]
  refine sum_congr rfl fun a ha => ?_
  by_cases hc : c a
  · rw [if_pos hc, if_pos hc, derivative_sub, derivative_X, derivative_C, sub_zero, mul_one]
    rw [← mul_prod_erase (range n) (fun b => if c b ∧ b ≠ a then X - C (T b) else 1) ha]
    simp only [ne_eq, not_true_eq_false, and_false, if_false, one_mul]
    refine prod_congr rfl fun b hb => ?_
    have := (mem_erase.mp hb).1
    simp [this]
  · rw [if_neg hc, if_neg hc, derivative_one, mul_zero]

theorem lagCreate_spec (n : Nat) (T x va : Nat → K) (i : Nat) (hi : i < n) :
    lagCreate n T x va i = x i / ∏ j ∈ (range n).erase i, (T i - T j) := by
  have e : lagCreate n T x va = fun j => if 0 ≤ j ∧ j < n then x j / ∏ k ∈ (range n).erase j, (T j - T k) else va j := by
    unfold lagCreate
    refine forUp_set1 (lo := 0) (hi := n) (fun i _ => x i / forUp 0 n (fun j a => if i ≠ j then a * (T i - T j) else a) 1) va
      (fun j => x j / ∏ k ∈ (range n).erase j, (T j - T k)) (fun k t _ hk _ _ => ?_)
    beta_reduce
    rw [forUp_prodIf n (fun j => k ≠ j), one_mul, ← mul_prod_erase (range n) _ (mem_range.mpr hk)]
    simp only [ne_eq, not_true_eq_false, if_false, one_mul]
    congr 1
    refine prod_congr rfl fun b hb => ?_
    have := (mem_erase.mp hb).1
    simp [Ne.symm this]
  rw [e]; beta_reduce; rw [if_pos (by omega)]

theorem lagVec_sum (n : Nat) (T va : Nat → K) (t : K) :
    lagVec n T va t = (∑ i ∈ range n, C (va i) * nprod n T (fun j => i ≠ j)).eval t := by
  unfold lagVec
  rw [forUp_sum' 0 n (fun i => (nprod n T (fun j => i ≠ j)).eval t * va i), zero_add, ← range_eq_Ico, eval_finsetSum]
  · refine sum_congr rfl fun i _ => ?_
    rw [eval_mul, eval_C]; ring
  · intro k v _ _
    simp only
    rw [forUp_prodIf n (fun j => k ≠ j), one_mul, eval_nprod]

/-- The interpolation polynomial in the form used by the code. -/
theorem interpolate_form (n : Nat) (T x va : Nat → K) :
    Lagrange.interpolate (range n) T x = ∑ i ∈ range n, C (lagCreate n T x va i) * nprod n T (fun j => i ≠ j) := by
  rw [Lagrange.interpolate_eq_sum]
  refine sum_congr rfl fun i hi => ?_
  rw [lagCreate_spec n T x va i (mem_range.mp hi)]
  congr 1
  unfold nprod
  rw [← mul_prod_erase (range n) _ hi]
  simp only [ne_eq, not_true_eq_false, if_false, one_mul]
  refine prod_congr rfl fun b hb => ?_
  have := (mem_erase.mp hb).1
  simp [Ne.symm this]

/-- **C31.** For any knots the value of the Lagrange interpolator is the value of the interpolation polynomial. -/
theorem lagVec_correct (n : Nat) (T x va : Nat → K) (t : K) :
    lagVec n T (lagCreate n T x va) t = (Lagrange.interpolate (range n) T x).eval t := by
  rw [lagVec_sum, ← interpolate_form]

/-- **C31.** The velocity is the derivative of that polynomial. -/
theorem lagVel_correct (n : Nat) (T x va : Nat → K) (t : K) :
    lagVel n T (lagCreate n T x va) t = (derivative (Lagrange.interpolate (range n) T x)).eval t := by
  rw [interpolate_form n T x va]
  generalize lagCreate n T x va = w
  have hL : lagVel n T w t = ∑ i ∈ range n, ∑ j ∈ Ico (i+1) n,
      (w i * (nprod n T (fun k => k ≠ i ∧ k ≠ j)).eval t + w j * (nprod n T (fun k => k ≠ j ∧ k ≠ i)).eval t) := by
    unfold lagVel
    rw [forUp_sum' 0 n (fun i => ∑ j ∈ Ico (i+1) n,
      (w i * (nprod n T (fun k => k ≠ i ∧ k ≠ j)).eval t + w j * (nprod n T (fun k => k ≠ j ∧ k ≠ i)).eval t)), zero_add, ← range_eq_Ico]
    intro i v _ _
    rw [forUp_sum' (i+1) n]
    intro j v _ _
    simp only
    rw [forUp_prodIf n (fun k => k ≠ i ∧ k ≠ j), one_mul, eval_nprod, eval_nprod]
    have : (∏ k ∈ range n, if k ≠ j ∧ k ≠ i then t - T k else 1) = ∏ k ∈ range n, if k ≠ i ∧ k ≠ j then t - T k else 1 :=
      prod_congr rfl fun k _ => by simp only [and_comm]
    rw [this]
    ring
  rw [hL, ← sum_pairs n (fun i j => w i * (nprod n T (fun k => k ≠ i ∧ k ≠ j)).eval t), derivative_sum, eval_finsetSum]
  refine sum_congr rfl fun i _ => ?_
  rw [derivative_C_mul, eval_mul, eval_C, derivative_nprod, eval_finsetSum, mul_sum]
  refine sum_congr rfl fun j _ => ?_
  by_cases h : j = i
  · subst h; simp
  · rw [if_pos h, if_pos (Ne.symm h)]
    congr 1
    rw [eval_nprod, eval_nprod]
    refine prod_congr rfl fun k _ => ?_
    congr 1
    simp only [ne_eq, eq_iff_iff, eq_comm]

/-- **C31.** The acceleration is its second derivative. -/
theorem lagAcc_correct (n : Nat) (T x va : Nat → K) (t : K) :
    lagAcc n T (lagCreate n T x va) t = (derivative (derivative (Lagrange.interpolate (range n) T x))).eval t := by
  rw [interpolate_form n T x va]
  generalize lagCreate n T x va = w
  set r : Nat → Nat → Nat → K := fun i j k => ∏ l ∈ range n, if l ≠ i ∧ l ≠ j ∧ l ≠ k then t - T l else 1 with hr
  have s1 : ∀ i j k, r i k j = r i j k := fun i j k => prod_congr rfl fun l _ => by congr 1; simp only [eq_iff_iff]; tauto
  have s2 : ∀ i j k, r j i k = r i j k := fun i j k => prod_congr rfl fun l _ => by congr 1; simp only [eq_iff_iff]; tauto
  have hL : lagAcc n T w t = ∑ i ∈ range n, ∑ j ∈ Ico (i+1) n, ∑ k ∈ Ico (j+1) n,
      (w i * r i j k + w i * r i k j + w j * r j i k + w j * r j k i + w k * r k i j + w k * r k j i) := by
    unfold lagAcc
    rw [forUp_sum' 0 n (fun i => ∑ j ∈ Ico (i+1) n, ∑ k ∈ Ico (j+1) n,
      (w i * r i j k + w i * r i k j + w j * r j i k + w j * r j k i + w k * r k i j + w k * r k j i)), zero_add, ← range_eq_Ico]
    intro i v _ _
    rw [forUp_sum' (i+1) n]
    intro j v _ _
    rw [forUp_sum' (j+1) n]
    intro k v _ _
    simp only
    rw [forUp_prodIf n (fun l => l ≠ i ∧ l ≠ j ∧ l ≠ k)]
    have e : (∏ l ∈ range n, if l ≠ i ∧ l ≠ j ∧ l ≠ k then t - T l else 1) = r i j k := rfl
    rw [e, s1 i j k, s2 i j k, show r j k i = r i j k by rw [s1 j i k, s2], show r k i j = r i j k by rw [s2 i k j, s1],
      show r k j i = r i j k by rw [s1 k i j, s2 i k j, s1]]
    ring
  rw [hL, ← sum_triples n (fun i j k => w i * r i j k), derivative_sum, derivative_sum, eval_finsetSum]
  refine sum_congr rfl fun i _ => ?_
  rw [derivative_C_mul, derivative_C_mul, eval_mul, eval_C, derivative_nprod, derivative_sum, eval_finsetSum, mul_sum]
  refine sum_congr rfl fun j _ => ?_
  by_cases h : j = i
  · subst h; simp
  · simp only [if_pos (show j ≠ i from h), if_pos (show i ≠ j from Ne.symm h)]
    rw [derivative_nprod, eval_finsetSum, mul_sum]
    refine sum_congr rfl fun k _ => ?_
    by_cases hk : k ≠ i ∧ k ≠ j
    · rw [if_pos hk, if_pos ⟨Ne.symm hk.1, hk.2⟩]
      congr 1
      rw [eval_nprod]
      refine prod_congr rfl fun l _ => ?_
      congr 1
      simp only [ne_eq, eq_iff_iff, eq_comm]
      tauto
    · rw [if_neg hk, if_neg (fun h => hk ⟨Ne.symm h.1, h.2⟩)]; simp

/-- **C31.** For distinct knots the interpolator passes through every knot; and any polynomial of degree below `n` with the
same values at the knots is the one evaluated. -/
theorem lagVec_knot (n : Nat) (T x va : Nat → K) (hT : ∀ i j, i < n → j < n → T i = T j → i = j) (i : Nat) (hi : i < n) :
    lagVec n T (lagCreate n T x va) (T i) = x i := by
  rw [lagVec_correct, Lagrange.eval_interpolate_at_node _ (fun a ha b hb h => hT a b (by simpa using ha) (by simpa using hb) h) (mem_range.mpr hi)]

theorem lagVec_unique (n : Nat) (T x va : Nat → K) (hT : ∀ i j, i < n → j < n → T i = T j → i = j) (p : K[X]) (hd : p.degree < n)
    (hp : ∀ i, i < n → p.eval (T i) = x i) (t : K) : lagVec n T (lagCreate n T x va) t = p.eval t := by
  rw [lagVec_correct, ← Lagrange.eq_interpolate_of_eval_eq x (s := range n) (v := T)
    (fun a ha b hb h => hT a b (by simpa using ha) (by simpa using hb) h) (by simpa using hd) (fun i hi => hp i (mem_range.mp hi))]

/-- With positive time increments the knots are distinct. -/
theorem knotTime_inj {n : Nat} {dt : Nat → K} (hdt : ∀ i, 0 < i → i < n → 0 < dt i) (i j : Nat) (hi : i < n) (hj : j < n)
    (h : knotTime dt i = knotTime dt j) : i = j := by
  rcases Nat.lt_trichotomy i j with g | g | g
  · exact absurd h (knotTime_lt hdt g hj).ne
  · exact g
  · exact absurd h (knotTime_lt hdt g hi).ne'

example (t : ℚ) : lagVec 3 (knotTime fun _ => 1) (lagCreate 3 (knotTime fun _ => 1) (fun i => (i+1:ℚ)^2) (fun _ => 0)) t = t^2 := by
  rw [lagVec_unique 3 _ _ _ (fun i j hi hj h => knotTime_inj (n := 3) (fun _ _ _ => by norm_num) i j hi hj h) (X^2) (by rw [degree_X_pow]; norm_cast)]
  · simp
  · intro i hi
    interval_cases i <;> norm_num [knotTime]

/-! ## Chebyshev interpolation -/

/-- Chebyshev polynomials of the first kind at a point. -/
noncomputable def chebT (x : K) (i : Nat) : K := (Polynomial.Chebyshev.T K i).eval x

theorem chebT_zero (x : K) : chebT x 0 = 1 := by simp [chebT]
theorem chebT_one (x : K) : chebT x 1 = x := by simp [chebT]
theorem chebT_succ (x : K) (i : Nat) : chebT x (i+2) = 2 * x * chebT x (i+1) - chebT x i := by
  unfold chebT
  push_cast
  rw [Polynomial.Chebyshev.T_add_two]
  simp

theorem chebRow_spec (n : Nat) (x : K) (row : Nat → K) (j : Nat) (hj : j < n) : chebRow n x row j = chebT x j := by
  unfold chebRow
  simp only
  rcases Nat.lt_or_ge n 2 with h | h
  · rw [forUp_of_le (by omega)]
    have : j = 0 := by omega
    subst this
    simp only
    rw [set1_ne _ _ (by omega), set1_same, chebT_zero]
  · have h := forUp_inv (lo := 2) (hi := n) (fun j (s : (Nat → K) × K × K) =>
      let f := 2 * x * s.2.2 - s.2.1
      (set1 s.1 j f, s.2.2, f)) (set1 (set1 row 0 1) 1 x, 1, x)
      (P := fun k s => (∀ j, j < k → s.1 j = chebT x j) ∧ s.2.1 = chebT x (k-2) ∧ s.2.2 = chebT x (k-1))
      h
      ⟨by
        intro j hj
        interval_cases j
        · simp only; rw [set1_ne _ _ (by omega), set1_same, chebT_zero]
        · simp only; rw [set1_same, chebT_one], by simp [chebT_zero], by simp [chebT_one]⟩
      (by
        intro k s hk1 hk2 ⟨h1, h2, h3⟩
        obtain ⟨m, rfl⟩ : ∃ m, k = m + 2 := ⟨k - 2, by omega⟩
        simp only [show m + 2 - 2 = m by omega, show m + 2 - 1 = m + 1 by omega] at h2 h3
        refine ⟨fun j hj => ?_, ?_, ?_⟩
        · simp only
          by_cases hjk : j = m + 2
          · subst hjk; rw [set1_same, chebT_succ, h2, h3]
          · rw [set1_ne _ _ hjk]; exact h1 j (by omega)
        · simp only [h3]; congr 1
        · simp only; rw [show m + 2 + 1 - 1 = m + 2 by omega, chebT_succ, h2, h3])
    exact h.1 j hj

theorem chebVec_spec (n : Nat) (hn : 2 ≤ n) (T va : Nat → K) (t : K) :
    chebVec n T va t = ∑ i ∈ range n, va i * chebT (chebScale t (T 0) (T (n-1))) i := by
  unfold chebVec
  simp only
  generalize chebScale t (T 0) (T (n-1)) = x
  have h := forUp_inv (lo := 2) (hi := n) (fun i (s : K × K × K) =>
    let f := 2 * x * s.2.2 - s.2.1
    (s.1 + f * va i, s.2.2, f)) (va 0 + x * va 1, 1, x)
    (P := fun k s => s.1 = ∑ i ∈ range k, va i * chebT x i ∧ s.2.1 = chebT x (k-2) ∧ s.2.2 = chebT x (k-1))
    hn ⟨by simp [sum_range_succ, chebT_zero, chebT_one, mul_comm], by simp [chebT_zero], by simp [chebT_one]⟩
    (by
      intro k s hk1 hk2 ⟨h1, h2, h3⟩
      obtain ⟨m, rfl⟩ : ∃ m, k = m + 2 := ⟨k - 2, by omega⟩
      simp only [show m + 2 - 2 = m by omega, show m + 2 - 1 = m + 1 by omega] at h2 h3
      refine ⟨?_, ?_, ?_⟩
      · simp only; rw [sum_range_succ _ (m+2), chebT_succ, h1, h2, h3]; ring
      · simp only [h3]; congr 1
      · simp only; rw [show m + 2 + 1 - 1 = m + 2 by omega, chebT_succ, h2, h3])
  exact h.1

/-- The Chebyshev interpolation polynomial: `∑ va i T_i` in the scaled abscissa. -/
noncomputable def chebPoly (n : Nat) (tmin tmax : K) (va : Nat → K) : K[X] :=
  ∑ i ∈ range n, C (va i) * (Polynomial.Chebyshev.T K i).comp (C (2 / (tmax - tmin)) * X - C ((tmax + tmin) / (tmax - tmin)))

/-- **C79.** The value is that of the polynomial. -/
theorem chebVec_correct (n : Nat) (hn : 2 ≤ n) (T va : Nat → K) (t : K) :
    chebVec n T va t = (chebPoly n (T 0) (T (n-1)) va).eval t := by
  rw [chebVec_spec n hn]
  unfold chebPoly
  rw [eval_finsetSum]
  refine sum_congr rfl fun i _ => ?_
  rw [eval_mul, eval_C, eval_comp]
  unfold chebT chebScale
  congr 2
  simp only [eval_sub, eval_mul, eval_C, eval_X]
  ring

/-- The scaled Chebyshev polynomial of index `i`. -/
noncomputable def sT (l : K[X]) (i : Nat) : K[X] := (Polynomial.Chebyshev.T K i).comp l

theorem sT_zero (l : K[X]) : sT l 0 = 1 := by simp [sT]
theorem sT_one (l : K[X]) : sT l 1 = l := by simp [sT]
theorem sT_succ (l : K[X]) (i : Nat) : sT l (i+2) = 2 * l * sT l (i+1) - sT l i := by
  unfold sT
  push_cast
  rw [Polynomial.Chebyshev.T_add_two]
  simp [sub_comp, mul_comp]

/-- **C79.** The velocity is its derivative. -/
theorem chebVel_correct (n : Nat) (hn : 2 ≤ n) (T va : Nat → K) (t : K) :
    chebVel n T va t = (derivative (chebPoly n (T 0) (T (n-1)) va)).eval t := by
  unfold chebVel chebPoly
  simp only
  generalize T 0 = a
  generalize T (n-1) = b
  change _ = (derivative (∑ i ∈ range n, C (va i) * sT (C (2 / (b - a)) * X - C ((b + a) / (b - a))) i)).eval t
  have hl : (C (2 / (b - a)) * X - C ((b + a) / (b - a))).eval t = chebScale t a b := by
    simp only [eval_sub, eval_mul, eval_C, eval_X, chebScale]; ring
  have hl' : (derivative (C (2 / (b - a)) * X - C ((b + a) / (b - a)))).eval t = 2 / (b - a) := by simp
  generalize (C (2 / (b - a)) * X - C ((b + a) / (b - a))) = l at *
  generalize 2 / (b - a) = dx at *
  generalize chebScale t a b = x at *
  rw [derivative_sum, eval_finsetSum]
  simp_rw [derivative_C_mul, eval_mul, eval_C]
  have h := forUp_inv (lo := 2) (hi := n) (fun i (s : K × (K × K) × (K × K)) =>
    (fun (v, (f1, f2), (df1, df2)) =>
    let f := 2 * x * f2 - f1
    let df := 2 * (dx * f2 + x * df2) - df1
    (v + df * va i, (f2, f), (df2, df))) s) (va 1 * dx, (1, x), (0, dx))
    (P := fun k s => s.1 = ∑ i ∈ range k, va i * (derivative (sT l i)).eval t ∧
      s.2.1 = ((sT l (k-2)).eval t, (sT l (k-1)).eval t) ∧ s.2.2 = ((derivative (sT l (k-2))).eval t, (derivative (sT l (k-1))).eval t))
    hn ⟨by simp [sum_range_succ, sT_zero, sT_one, hl'], by simp [sT_zero, sT_one, hl], by simp [sT_zero, sT_one, hl']⟩
    (by
      rintro k ⟨v, ⟨f1, f2⟩, ⟨df1, df2⟩⟩ hk1 hk2 ⟨h1, h2, h3⟩
      obtain ⟨m, rfl⟩ : ∃ m, k = m + 2 := ⟨k - 2, by omega⟩
      simp only [show m + 2 - 2 = m by omega, show m + 2 - 1 = m + 1 by omega, Prod.mk.injEq] at h1 h2 h3
      obtain ⟨rfl, rfl⟩ := h2
      obtain ⟨rfl, rfl⟩ := h3
      have e0 : (sT l (m+2)).eval t = 2 * x * (sT l (m+1)).eval t - (sT l m).eval t := by
        rw [sT_succ]; simp [hl]
      have e1 : (derivative (sT l (m+2))).eval t = 2 * (dx * (sT l (m+1)).eval t + x * (derivative (sT l (m+1))).eval t) - (derivative (sT l m)).eval t := by
        rw [sT_succ]; simp [derivative_mul, hl, hl']; ring
      refine ⟨?_, ?_, ?_⟩
      · simp only; rw [sum_range_succ _ (m+2), e1, h1]; ring
      · simp only [show m + 2 + 1 - 2 = m + 1 by omega, show m + 2 + 1 - 1 = m + 2 by omega, e0]
      · simp only [show m + 2 + 1 - 2 = m + 1 by omega, show m + 2 + 1 - 1 = m + 2 by omega, e1])
  exact h.1

/-- **C79.** The acceleration is its second derivative. -/
theorem chebAcc_correct (n : Nat) (hn : 2 ≤ n) (T va : Nat → K) (t : K) :
    chebAcc n T va t = (derivative (derivative (chebPoly n (T 0) (T (n-1)) va))).eval t := by
  unfold chebAcc chebPoly
  simp only
  generalize T 0 = a
  generalize T (n-1) = b
  change _ = (derivative (derivative (∑ i ∈ range n, C (va i) * sT (C (2 / (b - a)) * X - C ((b + a) / (b - a))) i))).eval t
  have hl : (C (2 / (b - a)) * X - C ((b + a) / (b - a))).eval t = chebScale t a b := by
    simp only [eval_sub, eval_mul, eval_C, eval_X, chebScale]; ring
  have hl' : (derivative (C (2 / (b - a)) * X - C ((b + a) / (b - a)))).eval t = 2 / (b - a) := by simp
  have hl'' : derivative (derivative (C (2 / (b - a)) * X - C ((b + a) / (b - a)))) = 0 := by simp
  generalize (C (2 / (b - a)) * X - C ((b + a) / (b - a))) = l at *
  generalize 2 / (b - a) = dx at *
  generalize chebScale t a b = x at *
  rw [derivative_sum, derivative_sum, eval_finsetSum]
  simp_rw [derivative_C_mul, eval_mul, eval_C]
  have h := forUp_inv (lo := 2) (hi := n) (fun i (s : K × (K × K) × (K × K) × (K × K)) =>
    (fun (v, (f1, f2), (df1, df2), (ddf1, ddf2)) =>
    let f := 2 * x * f2 - f1
    let df := 2 * (dx * f2 + x * df2) - df1
    let ddf := 2 * (2 * dx * df2 + x * ddf2) - ddf1
    (v + ddf * va i, (f2, f), (df2, df), (ddf2, ddf))) s) (0, (1, x), (0, dx), (0, 0))
    (P := fun k s => s.1 = ∑ i ∈ range k, va i * (derivative (derivative (sT l i))).eval t ∧
      s.2.1 = ((sT l (k-2)).eval t, (sT l (k-1)).eval t) ∧ s.2.2.1 = ((derivative (sT l (k-2))).eval t, (derivative (sT l (k-1))).eval t) ∧
      s.2.2.2 = ((derivative (derivative (sT l (k-2)))).eval t, (derivative (derivative (sT l (k-1)))).eval t))
    hn ⟨by simp [sum_range_succ, sT_zero, sT_one, hl''], by simp [sT_zero, sT_one, hl], by simp [sT_zero, sT_one, hl'],
      by simp [sT_zero, sT_one, hl'']⟩
    (by
      rintro k ⟨v, ⟨f1, f2⟩, ⟨df1, df2⟩, ⟨ddf1, ddf2⟩⟩ hk1 hk2 ⟨h1, h2, h3, h4⟩
      obtain ⟨m, rfl⟩ : ∃ m, k = m + 2 := ⟨k - 2, by omega⟩
      simp only [show m + 2 - 2 = m by omega, show m + 2 - 1 = m + 1 by omega, Prod.mk.injEq] at h1 h2 h3 h4
      obtain ⟨rfl, rfl⟩ := h2
      obtain ⟨rfl, rfl⟩ := h3
      obtain ⟨rfl, rfl⟩ := h4
      have e0 : (sT l (m+2)).eval t = 2 * x * (sT l (m+1)).eval t - (sT l m).eval t := by
        rw [sT_succ]; simp [hl]
      have e1 : (derivative (sT l (m+2))).eval t = 2 * (dx * (sT l (m+1)).eval t + x * (derivative (sT l (m+1))).eval t) - (derivative (sT l m)).eval t := by
        rw [sT_succ]; simp [derivative_mul, hl, hl']; ring
      have e2 : (derivative (derivative (sT l (m+2)))).eval t = 2 * (2 * dx * (derivative (sT l (m+1))).eval t + x * (derivative (derivative (sT l (m+1)))).eval t)
          - (derivative (derivative (sT l m))).eval t := by
        rw [sT_succ]; simp [derivative_mul, hl, hl', hl'']; ring
      refine ⟨?_, ?_, ?_, ?_⟩
      · simp only; rw [sum_range_succ _ (m+2), e2, h1]; ring
      · simp only [show m + 2 + 1 - 2 = m + 1 by omega, show m + 2 + 1 - 1 = m + 2 by omega, e0]
      · simp only [show m + 2 + 1 - 2 = m + 1 by omega, show m + 2 + 1 - 1 = m + 2 by omega, e1]
      · simp only [show m + 2 + 1 - 2 = m + 1 by omega, show m + 2 + 1 - 1 = m + 2 by omega, e2])
  exact h.1

end
end Zm.IP
