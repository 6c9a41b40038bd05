import Verif.Model.Misc
import Mathlib.Data.Nat.Choose.Basic
import Mathlib.Data.Nat.Choose.Cast
import Mathlib.Data.Nat.Factorial.BigOperators
import Mathlib.Data.Nat.Factorial.Cast
import Verif.Base.Tac

/-! # C01, C02, C03, C05: integer arithmetic helpers, tolerance comparison, line -/

namespace Zm.Misc
open Zm

variable {K : Type*}

/-! ## C01 -/

theorem zPowNLoop_eq [CommMonoid K] (x ret : K) (n : Nat) : zPowNLoop x ret n = ret * x ^ n := by
  induction n using Nat.strong_induction_on generalizing x ret with
  | _ n ih =>
    unfold zPowNLoop
    split
    · next h => simp [h]
    · next h =>
      split
      · next he =>
        rw [ih (n/2) (by omega), ← pow_two, ← pow_mul]
        congr 2; omega
      · rw [ih (n-1) (by omega), mul_assoc, ← pow_succ']
        congr 2; omega

/-- **C01 (powers).** `zPowN(x,n)` is the `n`-fold product of `x`, for every `x` of a commutative monoid and every `n`. -/
theorem zPowN_eq [CommMonoid K] (x : K) (n : Nat) : zPowN x n = x ^ n := by
  simp [zPowN, zPowNLoop_eq]

theorem zPermutationLoop_eq [CommRing K] (i n : Nat) (r : K) (h : i ≤ n) :
    zPermutationLoop i (n : Int) r = r * (n.descFactorial i : K) := by
  induction i generalizing n r with
  | zero => simp [zPermutationLoop]
  | succ i ih =>
    obtain ⟨m, rfl⟩ : ∃ m, n = m + 1 := ⟨n - 1, by omega⟩
    have : ((m + 1 : Nat) : Int) - 1 = (m : Int) := by push_cast; ring
    rw [zPermutationLoop, this, ih m _ (by omega), Nat.succ_descFactorial_succ]
    push_cast; ring

/-- **C01 (permutations).** `zPermutation(n,i)` is the number of ordered selections of `i` out of `n`
(descending factorial) when `0 ≤ i ≤ n`, and 0 for every other pair of integers. -/
theorem zPermutation_eq [CommRing K] (n i : Int) :
    (zPermutation n i : K) = if 0 ≤ i ∧ i ≤ n then (n.toNat.descFactorial i.toNat : K) else 0 := by
  unfold zPermutation
  by_cases h : 0 ≤ i ∧ i ≤ n
  · obtain ⟨m, rfl⟩ := Int.eq_ofNat_of_zero_le (show 0 ≤ n by omega)
    obtain ⟨j, rfl⟩ := Int.eq_ofNat_of_zero_le h.1
    rw [if_neg (by omega), if_pos h]
    simp only [Int.toNat_natCast]
    rw [zPermutationLoop_eq j m 1 (by omega), one_mul]
  · rw [if_pos (by omega), if_neg h]

/-- **C01 (factorial).** `zFactorial(n) = n!` for every `n ≥ 0`. -/
theorem zFactorial_eq [CommRing K] (n : Nat) : (zFactorial (n : Int) : K) = (n.factorial : K) := by
  rw [zFactorial, zPermutation_eq, if_pos ⟨by omega, le_refl _⟩]
  simp [Nat.descFactorial_self]

theorem comb_loop [Field K] [CharZero K] (n i k : Nat) (hk : k ≤ i) (hi : i ≤ n) :
    forUp 0 k (fun j val => val * ((((n:Int) - (j:Int) : Int) : K) / (((i:Int) - (j:Int) : Int) : K))) 1
      = (n.descFactorial k : K) / (i.descFactorial k : K) := by
  induction k with
  | zero => simp
  | succ k ih =>
    rw [forUp_succ (Nat.zero_le _), ih (by omega), Nat.descFactorial_succ, Nat.descFactorial_succ]
    have h1 : (((n:Int) - (k:Int) : Int) : K) = ((n - k : Nat) : K) := by
      rw [Nat.cast_sub (by omega)]; push_cast; ring
    have h2 : (((i:Int) - (k:Int) : Int) : K) = ((i - k : Nat) : K) := by
      rw [Nat.cast_sub (by omega)]; push_cast; ring
    rw [h1, h2, Nat.cast_mul, Nat.cast_mul, div_mul_div_comm]
    congr 1 <;> ring

theorem comb_eq_aux [Field K] [CharZero K] (n i : Nat) (hi : i ≤ n) :
    forUp 0 i (fun j val => val * ((((n:Int) - (j:Int) : Int) : K) / (((i:Int) - (j:Int) : Int) : K))) 1
      = (n.choose i : K) := by
  rw [comb_loop n i i (le_refl _) hi, Nat.descFactorial_self, Nat.descFactorial_eq_factorial_mul_choose]
  have : (i.factorial : K) ≠ 0 := by exact_mod_cast i.factorial_ne_zero
  push_cast; field_simp

/-- **C01 (combinations).** `zCombination(n,i)` is the binomial coefficient for all `0 ≤ i ≤ n`. -/
theorem zCombination_eq [Field K] [CharZero K] (n i : Nat) (hi : i ≤ n) :
    (zCombination (n : Int) (i : Int) : K) = (n.choose i : K) := by
  unfold zCombination
  simp only
  by_cases h : (n : Int) - i < i
  · rw [if_pos h]
    have e : (n : Int) - (i : Int) = ((n - i : Nat) : Int) := by omega
    rw [e]
    split
    · next h0 => have : i = n := by omega
                 simp [this]
    · rw [Int.toNat_natCast, comb_eq_aux n (n-i) (by omega), Nat.choose_symm hi]
  · rw [if_neg h]
    split
    · next h0 => have : i = 0 := by omega
                 simp [this]
    · rw [Int.toNat_natCast, comb_eq_aux n i hi]

/-- Outside `0 ≤ i ≤ n` the routine does not return the conventional value 0 but 1 (the loop body never runs). -/
theorem zCombination_out_of_range [Field K] (n : Nat) (i : Int) (h : i < 0 ∨ (n : Int) < i) :
    (zCombination (n : Int) i : K) = 1 := by
  unfold zCombination
  simp only
  have : (if (n:Int) - i < i then (n:Int) - i else i) < 0 := by split <;> omega
  generalize (if (n:Int) - i < i then (n:Int) - i else i) = j at this
  have e : j.toNat = 0 := by omega
  rw [if_neg (by omega), e]; simp

/-- **C01 (recursive combinations).** `zCombinationRecursive` agrees with the binomial coefficient on `0 ≤ i ≤ n`,
and reports NaN for `i` outside that range when `n > 0`. -/
theorem zCombinationRecursive_eq [CommRing K] (n i : Nat) (hi : i ≤ n) :
    zCombinationRecursive (K := K) (n : Int) (i : Int) = some (n.choose i : K) := by
  induction n generalizing i with
  | zero => unfold zCombinationRecursive; simp; obtain rfl : i = 0 := by omega
            simp
  | succ n ih =>
    unfold zCombinationRecursive
    rw [if_neg (by omega)]
    by_cases h0 : i = 0
    · simp [h0]
    by_cases hn : i = n + 1
    · simp [hn]
    obtain ⟨j, rfl⟩ : ∃ j, i = j + 1 := ⟨i - 1, by omega⟩
    rw [if_neg (by omega), if_neg (by omega)]
    have e1 : ((n + 1 : Nat) : Int) - 1 = (n : Int) := by push_cast; ring
    have e2 : ((j + 1 : Nat) : Int) - 1 = (j : Int) := by push_cast; ring
    rw [e1, e2, ih j (by omega), ih (j+1) (by omega), Nat.choose_succ_succ]
    simp [nanAdd]

theorem zCombinationRecursive_nan [CommRing K] (n : Nat) (hn : 0 < n) (i : Int) (h : i < 0 ∨ (n : Int) < i) :
    zCombinationRecursive (K := K) (n : Int) i = none := by
  unfold zCombinationRecursive
  rw [if_neg (by omega), if_neg (by omega), if_pos (by omega)]

example : (zPowN (3 : ℚ) 13 : ℚ) = 1594323 := by rw [zPowN_eq]; norm_num
example : (zCombination 10 7 : ℚ) = 120 := by
  have := zCombination_eq (K := ℚ) 10 7 (by norm_num)
  simpa [Nat.choose] using this

/-! ## C02 -/

theorem series_inner_ok [Ring K] (i : Nat) (c : Mem K) (hi : i < c.size) :
    ∃ c', zCombinationSeriesInner i c = .ok c' ∧ c'.size = c.size ∧
      ∀ k, c'.val k = if 1 ≤ k ∧ k < i then c.val k + c.val (k-1) else c.val k := by
  unfold zCombinationSeriesInner
  by_cases h1 : 1 ≤ i
  · obtain ⟨c', hc, hs, hv⟩ := forDownM_ok (lo := 1) (hi := i)
      (fun j (c : Mem K) => do c.wr j ((← c.rd j) + (← c.rd (j-1)))) c
      (fun j (c' : Mem K) => c'.size = c.size ∧
        ∀ k, c'.val k = if j ≤ k ∧ k < i then c.val k + c.val (k-1) else c.val k)
      h1 ⟨rfl, fun k => by rw [if_neg (by omega)]⟩
      (by
        rintro j t hj1 hj2 ⟨hs, hv⟩
        refine ⟨⟨t.size, fun k => if k = j then t.val j + t.val (j-1) else t.val k⟩, ?_, hs, ?_⟩
        · simp [Mem.rd_ok t (show j < t.size by omega), Mem.rd_ok t (show j - 1 < t.size by omega),
            Mem.wr_ok t _ (show j < t.size by omega)]
        · intro k
          simp only [hv]
          by_cases hk : k = j
          · subst hk
            rw [if_pos rfl, if_neg (by omega), if_neg (by omega), if_pos (by omega)]
          · rw [if_neg hk]
            by_cases h2 : j + 1 ≤ k ∧ k < i
            · rw [if_pos h2, if_pos (by omega)]
            · rw [if_neg h2, if_neg (by omega)])
    exact ⟨c', hc, hs, hv⟩
  · refine ⟨c, ?_, rfl, fun k => by rw [if_neg (by omega)]⟩
    have : i = 0 := by omega
    subst this; rfl

/-- **C02.** With a buffer of at least the claimed size, `zCombinationSeries(n,size,c)` succeeds without touching memory
outside the buffer exactly when `n < size`, fills `c[0..n]` with the `n`-th row of Pascal's triangle and leaves
every other cell alone; otherwise it reports an error (and, returning before any write, leaves `c` alone). -/
theorem zCombinationSeries_correct [Ring K] (n size : Nat) (c : Mem K) (hsz : size ≤ c.size) :
    (n < size → ∃ c', zCombinationSeries n size c = .ok c' ∧ c'.size = c.size ∧
      (∀ k, k ≤ n → c'.val k = (n.choose k : K)) ∧ (∀ k, n < k → c'.val k = c.val k)) ∧
    (¬ n < size → zCombinationSeries n size c = .fail) := by
  constructor
  · intro h
    unfold zCombinationSeries
    rw [if_neg (by omega)]
    obtain ⟨c', hc, hs, hv, hf⟩ := forUpM_ok (lo := 0) (hi := n+1)
      (fun i (c : Mem K) => do zCombinationSeriesInner i (← c.wr i 1)) c
      (fun i (c' : Mem K) => c'.size = c.size ∧ (∀ k, k < i → c'.val k = ((i-1).choose k : K)) ∧
        (∀ k, i ≤ k → c'.val k = c.val k))
      (Nat.zero_le _) ⟨rfl, fun k hk => by omega, fun k _ => rfl⟩
      (by
        rintro i t - hi ⟨hs, hv, hf⟩
        have hw := Mem.wr_ok t (1 : K) (show i < t.size by omega)
        obtain ⟨c', hc, hcs, hcv⟩ := series_inner_ok i
          (⟨t.size, fun j => if j = i then 1 else t.val j⟩ : Mem K) (by simpa using (show i < t.size by omega))
        refine ⟨c', by simp [hw, hc], by simpa using hcs.trans hs, ?_, ?_⟩
        · intro k hk
          rw [hcv]
          simp only [Nat.add_sub_cancel]
          by_cases hki : k = i
          · subst hki; rw [if_neg (by omega), if_pos rfl, Nat.choose_self, Nat.cast_one]
          · by_cases hk0 : k = 0
            · subst hk0
              rw [if_neg (by omega), if_neg hki, hv 0 (by omega)]; simp
            · obtain ⟨m, rfl⟩ : ∃ m, k = m + 1 := ⟨k - 1, by omega⟩
              obtain ⟨l, rfl⟩ : ∃ l, i = l + 1 := ⟨i - 1, by omega⟩
              rw [if_pos (by omega), if_neg hki, if_neg (by omega), hv _ (by omega), hv _ (by omega)]
              simp only [Nat.add_sub_cancel]
              rw [Nat.choose_succ_succ]; push_cast; rw [add_comm]
        · intro k hk
          rw [hcv, if_neg (by omega)]; simp only
          rw [if_neg (by omega), hf k (by omega)])
    exact ⟨c', hc, hs, fun k hk => by simpa using hv k (by omega), fun k hk => hf k (by omega)⟩
  · intro h
    unfold zCombinationSeries
    rw [if_pos (by omega)]

example : ∃ c', zCombinationSeries (K := ℚ) 4 6 (Mem.ofList [9,9,9,9,9,7]) = .ok c' ∧ c'.toList = [1,4,6,4,1,7] := by
  refine ⟨_, rfl, ?_⟩
  decide +kernel

/-! ## C03 -/

section equal
variable [Field K] [LinearOrder K] [IsStrictOrderedRing K]

/-- **C03 (meaning).** `zEqual` on finite numbers is `|a-b| ≤ tol·max(1,|a|,|b|)`; it never holds if one side is not finite. -/
theorem zEqual_iff (a b : Dbl K) (tol : K) :
    zEqual a b tol = true ↔ ∃ x y, a = .fin x ∧ b = .fin y ∧ |x - y| ≤ tol * max 1 (max |x| |y|) := by
  cases a <;> cases b <;> simp [zEqual, zIsTol]

omit [IsStrictOrderedRing K] in
/-- **C03 (symmetry).** -/
theorem zEqual_symm (a b : Dbl K) (tol : K) : zEqual a b tol = zEqual b a tol := by
  cases a <;> cases b <;> simp [zEqual, zIsTol, abs_sub_comm, max_comm]

/-- **C03 (reflexivity).** Every finite number equals itself for every tolerance `≥ 0`, and for no negative one. -/
theorem zEqual_refl (x tol : K) : zEqual (.fin x) (.fin x) tol = true ↔ 0 ≤ tol := by
  simp only [zEqual, zIsTol, sub_self, abs_zero, max_self, decide_eq_true_eq]
  have : (0:K) < max 1 |x| := lt_of_lt_of_le one_pos (le_max_left _ _)
  exact ⟨fun h => by by_contra hn; push Not at hn; nlinarith [mul_neg_of_neg_of_pos hn this], fun h => by positivity⟩

/-- **C03 (monotonicity).** A larger tolerance accepts at least as much. -/
theorem zEqual_mono (a b : Dbl K) {t1 t2 : K} (h : t1 ≤ t2) (he : zEqual a b t1 = true) : zEqual a b t2 = true := by
  rw [zEqual_iff] at he ⊢
  obtain ⟨x, y, rfl, rfl, hxy⟩ := he
  refine ⟨x, y, rfl, rfl, hxy.trans ?_⟩
  have : (0:K) ≤ max 1 (max |x| |y|) := le_trans zero_le_one (le_max_left _ _)
  exact mul_le_mul_of_nonneg_right h this

/-- It is not transitive, so it must not be used as an equivalence (concrete witness). -/
theorem zEqual_not_transitive : ∃ a b c tol : ℚ, zEqual (.fin a) (.fin b) tol = true ∧
    zEqual (.fin b) (.fin c) tol = true ∧ zEqual (.fin a) (.fin c) tol = false :=
  ⟨0, 1/2, 1, 1/2, by decide +kernel⟩

end equal

/-! ## C05 -/

/-- Specification: the value at `x` of the straight line through `(x0,y0)` and `(x1,y1)`. -/
def LineThrough [Field K] (f : K → K) (x0 y0 x1 y1 : K) : Prop :=
  f x0 = y0 ∧ f x1 = y1 ∧ ∃ a b, ∀ x, f x = a * x + b

/-- **C05 is violated.** `zLine` does not pass through its two points: a witness with rational coordinates. -/
theorem zLine_not_through : ∃ x0 y0 x1 y1 : ℚ, x0 ≠ x1 ∧
    ¬ LineThrough (fun x => zLine x x0 y0 x1 y1) x0 y0 x1 y1 :=
  ⟨0, 1, 1, 1, by norm_num, by intro h; have := h.1; norm_num [zLine] at this⟩

/-- **C05 (partial).** What is true of the code: it is the right line exactly when `x1*y0 = 0`
(the term `-x1*y0` should be `+x1*y0`).  Missing: the property for all other points (it is false there). -/
theorem zLine_through_iff_partial [Field K] [CharZero K] (x0 y0 x1 y1 : K) (h : x0 ≠ x1) :
    LineThrough (fun x => zLine x x0 y0 x1 y1) x0 y0 x1 y1 ↔ x1 * y0 = 0 := by
  have hd : x1 - x0 ≠ 0 := sub_ne_zero.2 (Ne.symm h)
  constructor
  · rintro ⟨h0, -, -⟩
    simp only [zLine] at h0
    rw [div_eq_iff hd] at h0
    have : 2 * (x1 * y0) = 0 := by linear_combination -h0
    rcases mul_eq_zero.1 this with h2 | h2
    · norm_num at h2
    · exact h2
  · intro hz
    refine ⟨?_, ?_, (y1 - y0) / (x1 - x0), (-(x0*y1) - x1*y0)/(x1-x0), fun x => ?_⟩
    · simp only [zLine]; rw [div_eq_iff hd]; linear_combination -2 * hz
    · simp only [zLine]; rw [div_eq_iff hd]; linear_combination -2 * hz
    · simp only [zLine]; field_simp; ring

example : (0:ℚ) ≠ 1 ∧ (1:ℚ) * 0 = 0 := by norm_num

end Zm.Misc
