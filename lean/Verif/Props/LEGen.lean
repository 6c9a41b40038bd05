import Verif.Model.LEGen
import Verif.Props.LE
import Mathlib.Algebra.Order.BigOperators.Ring.Finset
import Mathlib.Algebra.BigOperators.Field
import Mathlib.Algebra.Field.Rat
import Mathlib.Algebra.Order.Ring.Rat
import Mathlib.Tactic.Linarith
import Mathlib.Tactic.LinearCombination
import Mathlib.Tactic.Positivity
import Mathlib.Tactic.FieldSimp

/-! # C76: norm-minimising, error-minimising and singularity-robust solvers; quadratic products -/

set_option linter.unusedSectionVars false

namespace Zm.LE
open Zm Misc Finset
variable {K : Type*} [Field K] [LinearOrder K] [IsStrictOrderedRing K]

/-! ## Specification -/

/-- The `i`-th component of `A x`. -/
def Ax (cols : Nat) (A : Nat → Nat → K) (x : Nat → K) (i : Nat) : K := ∑ j ∈ range cols, A i j * x j

/-- The rows of `A` are linearly dependent. -/
def RowsDependent (rows cols : Nat) (A : Nat → Nat → K) : Prop :=
  ∃ z : Nat → K, (∃ i, i < rows ∧ z i ≠ 0) ∧ ∀ j, j < cols → ∑ i ∈ range rows, z i * A i j = 0

/-- The columns of `A` are linearly dependent. -/
def ColsDependent (rows cols : Nat) (A : Nat → Nat → K) : Prop :=
  ∃ z : Nat → K, (∃ j, j < cols ∧ z j ≠ 0) ∧ ∀ i, i < rows → Ax cols A z i = 0

/-- Weighted squared error of the equation. -/
def sqErr (rows cols : Nat) (A : Nat → Nat → K) (b we x : Nat → K) : K := ∑ k ∈ range rows, we k * (Ax cols A x k - b k) ^ 2

/-- Weighted squared distance. -/
def sqDist (cols : Nat) (d c x : Nat → K) : K := ∑ i ∈ range cols, d i * (x i - c i) ^ 2

/-! ## Elementary operations -/

theorem inner_spec (n : Nat) (u v : Nat → K) : inner n u v = ∑ k ∈ range n, u k * v k := by
  unfold inner
  rw [forUp_add 0 n (fun k => u k * v k) 0 (Nat.zero_le _), zero_add, range_eq_Ico]

theorem mulTVec_spec (rows cols : Nat) (a : Nat → Nat → K) (v ans : Nat → K) (j : Nat) :
    mulTVec rows cols a v ans j = if j < cols then ∑ i ∈ range rows, a i j * v i else ans j := by
  unfold mulTVec
  rw [forUp_set1 (fun j _ => inner rows (fun i => a i j) v) ans (fun j => ∑ i ∈ range rows, a i j * v i) (fun k _ _ _ _ _ => inner_spec _ _ _)]
  simp

theorem mulVec_spec (rows cols : Nat) (a : Nat → Nat → K) (v ans : Nat → K) (i : Nat) :
    mulVec rows cols a v ans i = if i < rows then Ax cols a v i else ans i := by
  unfold mulVec
  rw [forUp_set1 (fun i _ => inner cols (a i) v) ans (fun i => Ax cols a v i) (fun k _ _ _ _ _ => inner_spec _ _ _)]
  simp

theorem amp_spec (n : Nat) (w : Option (Nat → K)) (v : Nat → K) (i : Nat) : amp n w v i = if i < n then wt w i * v i else v i := by
  cases w with
  | none => simp [amp, wt]
  | some w =>
    unfold amp
    dsimp only
    rw [forUp_set1 (fun i v => v i * w i) v (fun i => w i * v i) (fun k t h1 h2 h3 h4 => by rw [h4 k (by omega), mul_comm])]
    simp [wt]

theorem addTo_spec (n : Nat) (v u : Nat → K) (i : Nat) : addTo n v u i = if i < n then v i + u i else v i := by
  unfold addTo
  rw [forUp_set1 (fun i v => v i + u i) v (fun i => v i + u i) (fun k t h1 h2 h3 h4 => by rw [h4 k (by omega)])]
  simp

theorem zLEResidual_spec (rows cols : Nat) (a : Nat → Nat → K) (b x : Nat → K) (i : Nat) (hi : i < rows) :
    zLEResidual rows cols a b x i = b i - Ax cols a x i := by
  unfold zLEResidual
  rw [forUp_set1 (fun i r => b i - r i) _ (fun i => b i - Ax cols a x i)
    (fun k t h1 h2 h3 h4 => by rw [h4 k (by omega), mulVec_spec, if_pos h2])]
  simp [hi]

theorem addDiag_spec (n : Nat) (m : Nat → Nat → K) (d : Nat → K) (i j : Nat) :
    addDiag n m d i j = if i = j ∧ i < n then m i j + d i else m i j := by
  have h := forUp_inv (lo := 0) (hi := n) (fun i m => set2 m i i (m i i + d i)) m
    (fun k (t : Nat → Nat → K) => ∀ i j, t i j = if i = j ∧ i < k then m i j + d i else m i j) (Nat.zero_le _) (by simp)
    (by
      intro k t _ hk h i j
      beta_reduce
      by_cases e : i = k ∧ j = k
      · rw [e.1, e.2, set2_same, h k k, if_neg (by omega), if_pos (by omega)]
      · rw [set2_ne _ _ e, h]
        by_cases g : i = j ∧ i < k
        · rw [if_pos g, if_pos (by omega)]
        · rw [if_neg g, if_neg (by omega)])
  exact h i j

/-! ## Quadratic products -/

theorem quadTerm_spec (n k : Nat) (w : Option (Nat → K)) (b : Nat → K) (i : Nat) (q : Nat → Nat → K) (i' j : Nat) :
    quadTerm n k w b i q i' j = if i' = i ∧ i ≤ j ∧ j < n then q i' j + wt w k * b i * b j else q i' j := by
  unfold quadTerm
  have e : quadWa w k (b i) = wt w k * b i := by cases w <;> simp [wt, quadWa]
  rw [e, forUp_row i (fun j q => q i j + wt w k * b i * b j) q (fun j => q i j + wt w k * b i * b j)
    (fun k t h1 h2 h3 => by rw [h3 i k (by omega)])]
  beta_reduce
  by_cases h : i' = i ∧ i ≤ j ∧ j < n
  · rw [if_pos h, if_pos h, h.1]
  · rw [if_neg h, if_neg h]

theorem quadRows_spec (n k : Nat) (w : Option (Nat → K)) (b : Nat → K) (q : Nat → Nat → K) (i j : Nat) :
    forUp 0 n (quadTerm n k w b) q i j = if i ≤ j ∧ j < n then q i j + wt w k * b i * b j else q i j := by
  have h := forUp_inv (lo := 0) (hi := n) (quadTerm n k w b) q
    (fun r (t : Nat → Nat → K) => ∀ i j, t i j = if i < r ∧ i ≤ j ∧ j < n then q i j + wt w k * b i * b j else q i j) (Nat.zero_le _) (by simp)
    (by
      intro r t _ hr h i j
      rw [quadTerm_spec, h]
      by_cases e : i = r ∧ r ≤ j ∧ j < n
      · rw [if_pos e, if_neg (by omega), if_pos (by omega), e.1]
      · rw [if_neg e]
        by_cases g : i < r ∧ i ≤ j ∧ j < n
        · rw [if_pos g, if_pos (by omega)]
        · rw [if_neg g, if_neg (by omega)])
  rw [h]
  by_cases g : i ≤ j ∧ j < n
  · rw [if_pos g, if_pos (by omega)]
  · rw [if_neg g, if_neg (by omega)]

theorem quadAcc_spec (n m : Nat) (w : Option (Nat → K)) (b : Nat → Nat → K) (i j : Nat) (hij : i ≤ j) (hj : j < n) :
    forUp 0 m (fun k q => forUp 0 n (quadTerm n k w (b k)) q) (fun _ _ => 0) i j = ∑ k ∈ range m, wt w k * b k i * b k j := by
  have h := forUp_inv (lo := 0) (hi := m) (fun k q => forUp 0 n (quadTerm n k w (b k)) q) (fun _ _ => (0 : K))
    (fun r (t : Nat → Nat → K) => t i j = ∑ k ∈ range r, wt w k * b k i * b k j) (Nat.zero_le _) (by simp)
    (by
      intro r t _ hr h
      beta_reduce
      rw [quadRows_spec, if_pos ⟨hij, hj⟩, h, sum_range_succ])
  exact h

theorem quadCopy_spec (n : Nat) (q : Nat → Nat → K) (i j : Nat) (hi : i < n) :
    quadCopy n q i j = if j ≤ i then q j i else q i j := by
  have h := forUp_inv (lo := 0) (hi := n) (fun i q => forUp i n (fun j q => set2 q j i (q i j)) q) q
    (fun r (t : Nat → Nat → K) => ∀ i j, t i j = if j < r ∧ j ≤ i ∧ i < n then q j i else q i j) (Nat.zero_le _) (by simp)
    (by
      intro r t _ hr h i j
      beta_reduce
      rw [forUp_col r (fun j q => q r j) t (fun j => t r j) (fun k s h1 h2 h3 => by
        by_cases hk : k = r
        · subst hk; exact h3 _ _ (by omega)
        · exact h3 _ _ (by omega))]
      dsimp only
      by_cases e : j = r ∧ r ≤ i ∧ i < n
      · obtain ⟨rfl, e1, e2⟩ := e
        rw [if_pos ⟨rfl, e1, e2⟩, h, if_neg (by omega), if_pos (by omega)]
      · rw [if_neg e, h]
        by_cases g : j < r ∧ j ≤ i ∧ i < n
        · rw [if_pos g, if_pos (by omega)]
        · rw [if_neg g, if_neg (by omega)])
  unfold quadCopy
  rw [h]
  by_cases g : j ≤ i
  · rw [if_pos g, if_pos (by omega)]
  · rw [if_neg g, if_neg (by omega)]

/-- `zMatQuad`: `a diag(w) a^T`, with ones for a null pointer. -/
theorem zMatQuadNC_spec (rows cols : Nat) (a : Nat → Nat → K) (w : Option (Nat → K)) (i j : Nat) (hi : i < rows) (hj : j < rows) :
    zMatQuadNC rows cols a w i j = ∑ k ∈ range cols, wt w k * a i k * a j k := by
  unfold zMatQuadNC
  rw [quadCopy_spec _ _ _ _ hi]
  by_cases g : j ≤ i
  · rw [if_pos g, quadAcc_spec rows cols w (fun k i => a i k) j i g hi]
    exact sum_congr rfl fun k _ => by ring
  · rw [if_neg g, quadAcc_spec rows cols w (fun k i => a i k) i j (by omega) hj]

/-- `zMatTQuad`: `a^T diag(w) a`, with ones for a null pointer. -/
theorem zMatTQuadNC_spec (rows cols : Nat) (a : Nat → Nat → K) (w : Option (Nat → K)) (i j : Nat) (hi : i < cols) (hj : j < cols) :
    zMatTQuadNC rows cols a w i j = ∑ k ∈ range rows, wt w k * a k i * a k j := by
  unfold zMatTQuadNC
  rw [quadCopy_spec _ _ _ _ hi]
  by_cases g : j ≤ i
  · rw [if_pos g, quadAcc_spec cols rows w (fun k i => a k i) j i g hi]
    exact sum_congr rfl fun k _ => by ring
  · rw [if_neg g, quadAcc_spec cols rows w (fun k i => a k i) i j (by omega) hj]

/-- The accumulation of a product of three matrices, for `l` from the left and `y` from the right. -/
theorem triple_loop (n r : Nat) (l : Nat → Nat → K) (y : Nat → Nat → K) (k j : Nat) (hk : k < r) (hj : j < r) :
    forUp 0 n (fun i m => forUp 0 r (fun j m => forUp 0 r (fun k m => set2 m k j (m k j + l k i * y i j)) m) m) (fun _ _ => (0 : K)) k j =
      ∑ i ∈ range n, l k i * y i j := by
  have hin : ∀ i (m : Nat → Nat → K) j k j', forUp 0 r (fun k m => set2 m k j (m k j + l k i * y i j)) m k j' =
      if j' = j ∧ k < r then m k j' + l k i * y i j else m k j' := by
    intro i m j k j'
    rw [forUp_col j (fun k m => m k j + l k i * y i j) m (fun k => m k j + l k i * y i j) (fun k t h1 h2 h3 => by rw [h3 k j (by omega)])]
    dsimp only
    by_cases h : j' = j ∧ k < r
    · rw [if_pos h, if_pos (by omega), h.1]
    · rw [if_neg h, if_neg (by omega)]
  have hmid : ∀ i (m : Nat → Nat → K), forUp 0 r (fun j m => forUp 0 r (fun k m => set2 m k j (m k j + l k i * y i j)) m) m k j =
      m k j + l k i * y i j := by
    intro i m
    have h := forUp_inv (lo := 0) (hi := r) (fun j m => forUp 0 r (fun k m => set2 m k j (m k j + l k i * y i j)) m) m
      (fun s (t : Nat → Nat → K) => t k j = if j < s then m k j + l k i * y i j else m k j) (Nat.zero_le _) (by simp)
      (by
        intro s t _ hs h
        beta_reduce
        rw [hin, h]
        by_cases e : j = s
        · rw [if_pos ⟨e, hk⟩, if_neg (by omega), if_pos (by omega), e]
        · rw [if_neg (by tauto)]
          by_cases g : j < s
          · rw [if_pos g, if_pos (by omega)]
          · rw [if_neg g, if_neg (by omega)])
    rw [h, if_pos hj]
  have h := forUp_inv (lo := 0) (hi := n)
    (fun i m => forUp 0 r (fun j m => forUp 0 r (fun k m => set2 m k j (m k j + l k i * y i j)) m) m) (fun _ _ => (0 : K))
    (fun s (t : Nat → Nat → K) => t k j = ∑ i ∈ range s, l k i * y i j) (Nat.zero_le _) (by simp)
    (by
      intro s t _ hs h
      beta_reduce
      rw [hmid, h, sum_range_succ])
  exact h

/-- `zMulMatMatMatT`: `a q a^T`. -/
theorem zMulMatMatMatTNC_spec (rows n : Nat) (a q : Nat → Nat → K) (k j : Nat) (hk : k < rows) (hj : j < rows) :
    zMulMatMatMatTNC rows n a q k j = ∑ i ∈ range n, ∑ l ∈ range n, a k i * q i l * a j l := by
  have h := triple_loop n rows a (fun i j => forUp 0 n (fun k y => y + q i k * a j k) 0) k j hk hj
  unfold zMulMatMatMatTNC
  dsimp only at h ⊢
  rw [h]
  refine sum_congr rfl fun i _ => ?_
  rw [forUp_add 0 n (fun k => q i k * a j k) 0 (Nat.zero_le _), zero_add, ← range_eq_Ico, mul_sum]
  exact sum_congr rfl fun l _ => by ring

/-- `zMulMatTMatMat`: `a^T q a`. -/
theorem zMulMatTMatMatNC_spec (n cols : Nat) (a q : Nat → Nat → K) (k j : Nat) (hk : k < cols) (hj : j < cols) :
    zMulMatTMatMatNC n cols a q k j = ∑ i ∈ range n, ∑ l ∈ range n, a i k * q i l * a l j := by
  have h := triple_loop n cols (fun k i => a i k) (fun i j => forUp 0 n (fun k y => y + q i k * a k j) 0) k j hk hj
  unfold zMulMatTMatMatNC
  dsimp only at h ⊢
  rw [h]
  refine sum_congr rfl fun i _ => ?_
  rw [forUp_add 0 n (fun k => q i k * a k j) 0 (Nat.zero_le _), zero_add, ← range_eq_Ico, mul_sum]
  exact sum_congr rfl fun l _ => by ring

example : zMatQuadNC (K := ℚ) 2 2 (fun i j => 2 * i + j + 1) (some fun k => k + 1) 1 0 = 1 * 3 * 1 + 2 * 4 * 2 := by decide +kernel

/-! ## Sums of squares -/

theorem sum_sq_zero (n : Nat) (w v : Nat → K) (hw : ∀ k, k < n → 0 < w k) (h : ∑ k ∈ range n, w k * v k ^ 2 = 0) (k : Nat) (hk : k < n) : v k = 0 := by
  have h0 : ∀ k ∈ range n, 0 ≤ w k * v k ^ 2 := fun k hk => mul_nonneg (hw k (mem_range.1 hk)).le (sq_nonneg _)
  have h1 := (sum_eq_zero_iff_of_nonneg h0).1 h k (mem_range.2 hk)
  rcases mul_eq_zero.1 h1 with h2 | h2
  · exact absurd h2 (hw k hk).ne'
  · exact pow_eq_zero_iff (two_ne_zero) |>.1 h2

theorem Ax_sub (cols : Nat) (A : Nat → Nat → K) (x y : Nat → K) (i : Nat) : Ax cols A (fun j => x j - y j) i = Ax cols A x i - Ax cols A y i := by
  unfold Ax
  rw [← sum_sub_distrib]
  exact sum_congr rfl fun j _ => by ring

/-- Transposition: `y · (A x) = (A^T y) · x`. -/
theorem adjoint (rows cols : Nat) (A : Nat → Nat → K) (y x : Nat → K) :
    ∑ i ∈ range rows, y i * Ax cols A x i = ∑ j ∈ range cols, (∑ i ∈ range rows, y i * A i j) * x j := by
  unfold Ax
  simp only [mul_sum, sum_mul]
  rw [sum_comm]
  exact sum_congr rfl fun j _ => sum_congr rfl fun i _ => by ring

/-! ## Norm minimisation -/

theorem normMat_spec (rows cols : Nat) (a : Nat → Nat → K) (w : Option (Nat → K)) (i j : Nat) (hi : i < rows) (hj : j < rows) :
    normMat rows cols a w i j = ∑ k ∈ range cols, wt w k * a i k * a j k := by
  unfold normMat
  cases w with
  | some w => exact zMatQuadNC_spec rows cols a (some w) i j hi hj
  | none =>
    dsimp only
    unfold mulMatSelfT
    rw [inner_spec]
    exact sum_congr rfl fun k _ => by simp [wt]; ring

/-- `A W A^T y` is `A (W A^T y)`. -/
theorem normMat_mul (rows cols : Nat) (a : Nat → Nat → K) (w : Option (Nat → K)) (y : Nat → K) (i : Nat) (hi : i < rows) :
    ∑ j ∈ range rows, normMat rows cols a w i j * y j = Ax cols a (fun k => wt w k * ∑ j ∈ range rows, y j * a j k) i := by
  unfold Ax
  simp only [mul_sum]
  rw [sum_comm]
  refine sum_congr rfl fun j hj => ?_
  rw [normMat_spec rows cols a w i j hi (mem_range.1 hj), sum_mul]
  exact sum_congr rfl fun k _ => by ring

/-- A singular matrix of the normal equation means dependent rows. -/
theorem normMat_singular (rows cols : Nat) (a : Nat → Nat → K) (w : Option (Nat → K)) (hw : ∀ k, k < cols → 0 < wt w k)
    (h : Singular rows (normMat rows cols a w)) : RowsDependent rows cols a := by
  obtain ⟨z, hz, h0⟩ := h
  refine ⟨z, hz, ?_⟩
  have h1 : ∑ k ∈ range cols, wt w k * (∑ i ∈ range rows, z i * a i k) ^ 2 = 0 := by
    have e := adjoint rows cols a z (fun k => wt w k * ∑ j ∈ range rows, z j * a j k)
    rw [sum_eq_zero (fun i hi => by
      rw [← normMat_mul rows cols a w z i (mem_range.1 hi), h0 i (mem_range.1 hi), mul_zero])] at e
    rw [e]
    exact sum_congr rfl fun k _ => by ring
  exact fun j hj => sum_sq_zero cols (wt w) _ hw h1 j hj

/-- Conversely the matrix is singular when the rows are dependent. -/
theorem normMat_singular' (rows cols : Nat) (a : Nat → Nat → K) (w : Option (Nat → K)) (h : RowsDependent rows cols a) :
    Singular rows (normMat rows cols a w) := by
  obtain ⟨z, hz, h0⟩ := h
  refine ⟨z, hz, fun i hi => ?_⟩
  rw [normMat_mul rows cols a w z i hi]
  exact sum_eq_zero fun k hk => by beta_reduce; rw [h0 k (mem_range.1 hk), mul_zero, mul_zero]

/-- `x - c = W A^T y` is the shortest way from `c` to the solutions of `A x = b`, in the norm with the weights `1/w`. -/
theorem shortest (rows cols : Nat) (A : Nat → Nat → K) (b y c x : Nat → K) (w : Nat → K) (hw : ∀ k, k < cols → 0 < w k)
    (hx : ∀ j, j < cols → x j - c j = w j * ∑ i ∈ range rows, y i * A i j) (hs : ∀ i, i < rows → Ax cols A x i = b i)
    (z : Nat → K) (hz : ∀ i, i < rows → Ax cols A z i = b i) :
    sqDist cols (fun j => 1 / w j) c z = sqDist cols (fun j => 1 / w j) c x + ∑ j ∈ range cols, 1 / w j * (z j - x j) ^ 2 := by
  have h1 : ∑ j ∈ range cols, 1 / w j * ((x j - c j) * (z j - x j)) = 0 := by
    have e := adjoint rows cols A y (fun j => z j - x j)
    rw [sum_eq_zero (fun i hi => by
      rw [Ax_sub, hz i (mem_range.1 hi), hs i (mem_range.1 hi), sub_self, mul_zero])] at e
    rw [e]
    refine sum_congr rfl fun j hj => ?_
    rw [hx j (mem_range.1 hj)]
    have := (hw j (mem_range.1 hj)).ne'
    field_simp
  unfold sqDist
  have h2 : ∑ j ∈ range cols, 1 / w j * (z j - c j) ^ 2 = ∑ j ∈ range cols, 1 / w j * (x j - c j) ^ 2 +
      2 * ∑ j ∈ range cols, 1 / w j * ((x j - c j) * (z j - x j)) + ∑ j ∈ range cols, 1 / w j * (z j - x j) ^ 2 := by
    rw [mul_sum, ← sum_add_distrib, ← sum_add_distrib]
    exact sum_congr rfl fun j _ => by ring
  rw [h2, h1]; ring

/-- Strict improvement, from the identity of `shortest` and the like. -/
theorem lt_of_gap (n : Nat) (w v : Nat → K) (hw : ∀ k, k < n → 0 < w k) (h : ∃ k, k < n ∧ v k ≠ 0) : 0 < ∑ k ∈ range n, w k * v k ^ 2 := by
  have h0 : 0 ≤ ∑ k ∈ range n, w k * v k ^ 2 := sum_nonneg fun k hk => mul_nonneg (hw k (mem_range.1 hk)).le (sq_nonneg _)
  rcases h0.lt_or_eq with h1 | h1
  · exact h1
  · obtain ⟨k, hk, hv⟩ := h
    exact absurd (sum_sq_zero n w v hw h1.symm k hk) hv

/-- The problem of `zLESolveRefNormMin` solved by an answer: it solves the equation, and every other solution is farther from `ref` in the
norm with the weights `1/w`. -/
def Nearest (rows cols : Nat) (A : Nat → Nat → K) (b : Nat → K) (w : Option (Nat → K)) (ref x : Nat → K) : Prop :=
  (∀ i, i < rows → Ax cols A x i = b i) ∧
  ∀ z : Nat → K, (∀ i, i < rows → Ax cols A z i = b i) → (∃ j, j < cols ∧ z j ≠ x j) →
    sqDist cols (fun j => 1 / wt w j) ref x < sqDist cols (fun j => 1 / wt w j) ref z

theorem nearest_of (rows cols : Nat) (A : Nat → Nat → K) (b y ref x : Nat → K) (w : Option (Nat → K)) (hw : ∀ k, k < cols → 0 < wt w k)
    (hx : ∀ j, j < cols → x j - ref j = wt w j * ∑ i ∈ range rows, y i * A i j) (hs : ∀ i, i < rows → Ax cols A x i = b i) :
    Nearest rows cols A b w ref x := by
  refine ⟨hs, fun z hz hne => ?_⟩
  rw [shortest rows cols A b y ref x (wt w) hw hx hs z hz]
  have := lt_of_gap cols (fun j => 1 / wt w j) (fun j => z j - x j) (fun k hk => one_div_pos.2 (hw k hk))
    (by obtain ⟨j, hj, h⟩ := hne; exact ⟨j, hj, sub_ne_zero.2 h⟩)
  linarith

theorem Ax_congr (cols : Nat) (A : Nat → Nat → K) (x y : Nat → K) (h : ∀ j, j < cols → x j = y j) (i : Nat) : Ax cols A x i = Ax cols A y i :=
  sum_congr rfl fun j hj => by rw [h j (mem_range.1 hj)]

/-- C76, `zLESolveRefNormMin`: for every matrix, positive weights and reference, the answer solves the equation and is the nearest solution to the reference; failure is reported exactly
when the rows of the matrix are dependent. -/
theorem zLESolveRefNormMin_correct (rows cols : Nat) (A : Nat → Nat → K) (b : Nat → K) (w : Option (Nat → K)) (hw : ∀ k, k < cols → 0 < wt w k) (ref ans : Nat → K) :
    (∃ x, zLESolveRefNormMin 0 rows cols A b w ref ans = .ok x ∧ Nearest rows cols A b w ref x) ∨
    (zLESolveRefNormMin 0 rows cols A b w ref ans = .fail ∧ RowsDependent rows cols A) := by
  unfold zLESolveRefNormMin
  rcases gaussSolveIdx_exact rows (fun i => i) (PermOn.id _) (normMat rows cols A w) (zLEResidual rows cols A b ref) (fun _ => (0 : K)) with
    ⟨y, idx', e, -, hy⟩ | ⟨e, hs⟩
  · left
    rw [e]
    refine ⟨_, rfl, ?_⟩
    have hx : ∀ j, j < cols → addTo cols (amp cols w (mulTVec rows cols A y ans)) ref j = wt w j * (∑ i ∈ range rows, y i * A i j) + ref j := by
      intro j hj
      rw [addTo_spec, if_pos hj, amp_spec, if_pos hj, mulTVec_spec, if_pos hj]
      congr 2
      exact sum_congr rfl fun i _ => mul_comm _ _
    refine nearest_of rows cols A b y ref _ w hw (fun j hj => by rw [hx j hj]; ring) fun i hi => ?_
    rw [Ax_congr _ _ _ _ hx]
    have h1 := hy i hi
    simp only [smul_eq_mul] at h1
    rw [normMat_mul rows cols A w y i hi, zLEResidual_spec _ _ _ _ _ _ hi] at h1
    rw [show b i = (b i - Ax cols A ref i) + Ax cols A ref i by ring, ← h1]
    unfold Ax
    rw [← sum_add_distrib]
    exact sum_congr rfl fun j _ => by ring
  · right
    rw [e]
    exact ⟨rfl, normMat_singular rows cols A w hw hs⟩

theorem zLESolveNormMinDST_correct (rows cols : Nat) (idx : Nat → Nat) (hidx : PermOn rows idx) (A : Nat → Nat → K) (b : Nat → K) (w : Option (Nat → K))
    (hw : ∀ k, k < cols → 0 < wt w k) (ans : Nat → K) :
    (∃ x idx', zLESolveNormMinDST 0 rows cols idx A b w ans = .ok (x, idx') ∧ Nearest rows cols A b w (fun _ => 0) x) ∨
    (zLESolveNormMinDST 0 rows cols idx A b w ans = .fail ∧ RowsDependent rows cols A) := by
  unfold zLESolveNormMinDST
  rcases gaussSolveIdx_exact rows idx hidx (normMat rows cols A w) b (fun _ => (0 : K)) with ⟨y, idx', e, -, hy⟩ | ⟨e, hs⟩
  · left
    rw [e]
    refine ⟨_, _, rfl, ?_⟩
    have hx : ∀ j, j < cols → amp cols w (mulTVec rows cols A y ans) j = wt w j * (∑ i ∈ range rows, y i * A i j) := by
      intro j hj
      rw [amp_spec, if_pos hj, mulTVec_spec, if_pos hj]
      congr 1
      exact sum_congr rfl fun i _ => mul_comm _ _
    refine nearest_of rows cols A b y _ _ w hw (fun j hj => by rw [hx j hj]; ring) fun i hi => ?_
    rw [Ax_congr _ _ _ _ hx]
    have h1 := hy i hi
    simp only [smul_eq_mul] at h1
    rw [normMat_mul rows cols A w y i hi] at h1
    exact h1
  · right
    rw [e]
    exact ⟨rfl, normMat_singular rows cols A w hw hs⟩

/-- C76, `zLESolveNormMin`: for every matrix and positive weights, the answer solves the equation and every other solution has a larger norm (with the weights `1/w`, which
is the plain norm for a null pointer); failure is reported only when the rows of the matrix are dependent. -/
theorem zLESolveNormMin_correct (rows cols : Nat) (A : Nat → Nat → K) (b : Nat → K) (w : Option (Nat → K)) (hw : ∀ k, k < cols → 0 < wt w k) (ans : Nat → K) :
    (∃ x, zLESolveNormMin 0 rows cols A b w ans = .ok x ∧ Nearest rows cols A b w (fun _ => 0) x) ∨
    (zLESolveNormMin 0 rows cols A b w ans = .fail ∧ RowsDependent rows cols A) := by
  unfold zLESolveNormMin
  rcases zLESolveNormMinDST_correct rows cols (fun i => i) (PermOn.id _) A b w hw ans with ⟨x, idx', e, h⟩ | ⟨e, h⟩
  · left; rw [e]; exact ⟨x, rfl, h⟩
  · right; rw [e]; exact ⟨rfl, h⟩

/-- Without weights: the solution of the least plain norm. -/
theorem zLESolveNormMin_unweighted (rows cols : Nat) (A : Nat → Nat → K) (b ans : Nat → K) (hA : ¬ RowsDependent rows cols A) :
    ∃ x, zLESolveNormMin 0 rows cols A b none ans = .ok x ∧ (∀ i, i < rows → Ax cols A x i = b i) ∧
      ∀ z : Nat → K, (∀ i, i < rows → Ax cols A z i = b i) → (∃ j, j < cols ∧ z j ≠ x j) → ∑ j ∈ range cols, x j ^ 2 < ∑ j ∈ range cols, z j ^ 2 := by
  rcases zLESolveNormMin_correct rows cols A b none (fun k _ => by simp [wt]) ans with ⟨x, e, h1, h2⟩ | ⟨-, h⟩
  · refine ⟨x, e, h1, fun z hz hne => ?_⟩
    have := h2 z hz hne
    simpa [sqDist, wt] using this
  · exact absurd h hA

/-- C76 is false of weights as the header describes them ("diagonal components of a weighting matrix on each component of ans"): of the equation `x₀ + x₁ = 5` with the weights
`1` and `4` the answer is `(1, 4)`, of weighted norm `1·1² + 4·4² = 65`, whereas `(4, 1)` has `1·4² + 4·1² = 20`. -/
theorem zLESolveNormMin_weight_violated :
    ∃ x : Nat → ℚ, zLESolveNormMin (K := ℚ) 0 1 2 (fun _ _ => 1) (fun _ => 5) (some fun k => if k = 0 then 1 else 4) (fun _ => 0) = .ok x ∧
      ∃ z : Nat → ℚ, Ax 2 (fun _ _ => 1) z 0 = 5 ∧
        ∑ j ∈ range 2, (if j = 0 then 1 else 4) * z j ^ 2 < ∑ j ∈ range 2, (if j = 0 then 1 else 4) * x j ^ 2 := by
  have h : (match zLESolveNormMin (K := ℚ) 0 1 2 (fun _ _ => 1) (fun _ => 5) (some fun k => if k = 0 then 1 else 4) (fun _ => 0) with
    | .ok x => decide (x 0 = 1 ∧ x 1 = 4)
    | _ => false) = true := by decide +kernel
  generalize zLESolveNormMin (K := ℚ) 0 1 2 (fun _ _ => 1) (fun _ => 5) (some fun k => if k = 0 then 1 else 4) (fun _ => 0) = r at h ⊢
  cases r with
  | ok x =>
    have h := of_decide_eq_true h
    refine ⟨x, rfl, fun j => if j = 0 then 4 else 1, ?_, ?_⟩
    · norm_num [Ax, sum_range_succ]
    · norm_num [sum_range_succ, h.1, h.2]
  | fail => exact absurd h (by decide)
  | ub => exact absurd h (by decide)

/-- A case with independent rows and non-trivial weights. -/
example : (match zLESolveRefNormMin (K := ℚ) 0 2 3 (fun i j => if i = 0 then 1 else (j : ℚ)) (fun i => if i = 0 then 6 else 8) (some fun k => k + 1) (fun _ => 1) (fun _ => 0) with
    | .ok x => decide (x 0 + x 1 + x 2 = 6 ∧ x 1 + 2 * x 2 = 8)
    | _ => false) = true := by decide +kernel

/-! ## Least squares and regularisation -/

/-- The regularised normal equation. -/
def NormalEq (rows cols : Nat) (A : Nat → Nat → K) (b we d c x : Nat → K) : Prop :=
  ∀ i, i < cols → (∑ j ∈ range cols, (∑ k ∈ range rows, we k * A k i * A k j) * x j) + d i * x i = (∑ k ∈ range rows, A k i * (we k * b k)) + d i * c i

/-- The cost around a solution of the normal equation. -/
theorem cost_expand (rows cols : Nat) (A : Nat → Nat → K) (b we d c x : Nat → K) (h : NormalEq rows cols A b we d c x) (z : Nat → K) :
    sqErr rows cols A b we z + sqDist cols d c z = sqErr rows cols A b we x + sqDist cols d c x +
      (∑ k ∈ range rows, we k * (Ax cols A (fun j => z j - x j) k) ^ 2 + ∑ i ∈ range cols, d i * (z i - x i) ^ 2) := by
  have h1 : ∑ k ∈ range rows, (we k * (Ax cols A x k - b k)) * Ax cols A (fun j => z j - x j) k + ∑ i ∈ range cols, d i * (x i - c i) * (z i - x i) = 0 := by
    rw [adjoint, ← sum_add_distrib]
    refine sum_eq_zero fun i hi => ?_
    have e := h i (mem_range.1 hi)
    have e2 : ∑ j ∈ range cols, (∑ k ∈ range rows, we k * A k i * A k j) * x j = ∑ k ∈ range rows, we k * Ax cols A x k * A k i := by
      unfold Ax
      simp only [sum_mul, mul_sum]
      rw [sum_comm]
      exact sum_congr rfl fun k _ => sum_congr rfl fun j _ => by ring
    rw [e2] at e
    have e3 : ∑ k ∈ range rows, we k * (Ax cols A x k - b k) * A k i = ∑ k ∈ range rows, we k * Ax cols A x k * A k i - ∑ k ∈ range rows, A k i * (we k * b k) := by
      rw [← sum_sub_distrib]
      exact sum_congr rfl fun k _ => by ring
    rw [e3]
    linear_combination (z i - x i) * e
  have h2 : sqErr rows cols A b we z = sqErr rows cols A b we x + 2 * ∑ k ∈ range rows, (we k * (Ax cols A x k - b k)) * Ax cols A (fun j => z j - x j) k +
      ∑ k ∈ range rows, we k * (Ax cols A (fun j => z j - x j) k) ^ 2 := by
    unfold sqErr
    rw [mul_sum, ← sum_add_distrib, ← sum_add_distrib]
    exact sum_congr rfl fun k _ => by rw [Ax_sub]; ring
  have h3 : sqDist cols d c z = sqDist cols d c x + 2 * ∑ i ∈ range cols, d i * (x i - c i) * (z i - x i) + ∑ i ∈ range cols, d i * (z i - x i) ^ 2 := by
    unfold sqDist
    rw [mul_sum, ← sum_add_distrib, ← sum_add_distrib]
    exact sum_congr rfl fun k _ => by ring
  rw [h2, h3]
  linear_combination 2 * h1

/-- The matrix of the normal equation applied to a vector. -/
theorem quadForm (rows cols : Nat) (A : Nat → Nat → K) (we z : Nat → K) :
    ∑ i ∈ range cols, z i * ∑ j ∈ range cols, (∑ k ∈ range rows, we k * A k i * A k j) * z j = ∑ k ∈ range rows, we k * (Ax cols A z k) ^ 2 := by
  unfold Ax
  have : ∀ k, we k * (∑ j ∈ range cols, A k j * z j) ^ 2 = ∑ i ∈ range cols, ∑ j ∈ range cols, we k * A k i * A k j * z j * z i := by
    intro k
    rw [pow_two, sum_mul_sum, mul_sum]
    refine sum_congr rfl fun i _ => ?_
    rw [mul_sum]
    exact sum_congr rfl fun j _ => by ring
  simp only [this, mul_sum, sum_mul]
  rw [sum_comm' (s := range rows) (t' := range cols) (s' := fun _ => range rows) (by simp)]
  refine sum_congr rfl fun i _ => ?_
  rw [sum_comm]
  exact sum_congr rfl fun k _ => sum_congr rfl fun j _ => by ring

/-- A least-squares solution: no vector has a smaller weighted error. -/
def LeastSquares (rows cols : Nat) (A : Nat → Nat → K) (b : Nat → K) (w : Option (Nat → K)) (x : Nat → K) : Prop :=
  ∀ z : Nat → K, sqErr rows cols A b (wt w) x ≤ sqErr rows cols A b (wt w) z

theorem rhs_spec (rows cols : Nat) (A : Nat → Nat → K) (b : Nat → K) (w : Option (Nat → K)) (i : Nat) (hi : i < cols) :
    mulTVec rows cols A (amp rows w b) (fun _ => 0) i = ∑ k ∈ range rows, A k i * (wt w k * b k) := by
  rw [mulTVec_spec, if_pos hi]
  exact sum_congr rfl fun k hk => by rw [amp_spec, if_pos (mem_range.1 hk)]

theorem zLESolveErrorMinDST_correct (rows cols : Nat) (idx : Nat → Nat) (hidx : PermOn cols idx) (A : Nat → Nat → K) (b : Nat → K) (w : Option (Nat → K))
    (hw : ∀ k, k < rows → 0 < wt w k) (ans : Nat → K) :
    (∃ x idx', zLESolveErrorMinDST 0 rows cols idx A b w ans = .ok (x, idx') ∧ PermOn cols idx' ∧ NormalEq rows cols A b (wt w) (fun _ => 0) (fun _ => 0) x) ∨
    (zLESolveErrorMinDST 0 rows cols idx A b w ans = .fail ∧ ColsDependent rows cols A) := by
  unfold zLESolveErrorMinDST
  rcases gaussSolveIdx_exact cols idx hidx (zMatTQuadNC rows cols A w) (mulTVec rows cols A (amp rows w b) (fun _ => 0)) ans with
    ⟨x, idx', e, hp, hx⟩ | ⟨e, z, hz, h0⟩
  · left
    refine ⟨x, idx', e, hp, fun i hi => ?_⟩
    have h1 := hx i hi
    simp only [smul_eq_mul] at h1
    rw [rhs_spec _ _ _ _ _ _ hi] at h1
    rw [zero_mul, zero_mul, add_zero, add_zero, ← h1]
    exact sum_congr rfl fun j hj => by rw [zMatTQuadNC_spec rows cols A w i j hi (mem_range.1 hj)]
  · right
    refine ⟨e, z, hz, ?_⟩
    have h1 := quadForm rows cols A (wt w) z
    rw [sum_eq_zero (fun i hi => by
      have h2 := h0 i (mem_range.1 hi)
      rw [show ∑ j ∈ range cols, (∑ k ∈ range rows, wt w k * A k i * A k j) * z j = 0 by
        rw [← h2]
        exact sum_congr rfl fun j hj => by rw [zMatTQuadNC_spec rows cols A w i j (mem_range.1 hi) (mem_range.1 hj)], mul_zero])] at h1
    exact fun k hk => sum_sq_zero rows (wt w) _ hw h1.symm k hk

theorem leastSquares_of (rows cols : Nat) (A : Nat → Nat → K) (b : Nat → K) (w : Option (Nat → K)) (hw : ∀ k, k < rows → 0 ≤ wt w k) (x : Nat → K)
    (h : NormalEq rows cols A b (wt w) (fun _ => 0) (fun _ => 0) x) : LeastSquares rows cols A b w x := by
  intro z
  have e := cost_expand rows cols A b (wt w) (fun _ => 0) (fun _ => 0) x h z
  have e1 : ∀ y : Nat → K, sqDist cols (fun _ => 0) (fun _ => 0) y = 0 := fun y => by simp [sqDist]
  have e2 : 0 ≤ ∑ k ∈ range rows, wt w k * (Ax cols A (fun j => z j - x j) k) ^ 2 := sum_nonneg fun k hk => mul_nonneg (hw k (mem_range.1 hk)) (sq_nonneg _)
  rw [e1, e1] at e
  simp only [zero_mul, sum_const_zero] at e
  linarith

/-- C76, `zLESolveErrorMin`: for every matrix and positive weights, the answer has the least weighted squared error; failure is reported only when the columns of the matrix are
dependent. -/
theorem zLESolveErrorMin_correct (rows cols : Nat) (A : Nat → Nat → K) (b : Nat → K) (w : Option (Nat → K)) (hw : ∀ k, k < rows → 0 < wt w k) (ans : Nat → K) :
    (∃ x, zLESolveErrorMin 0 rows cols A b w ans = .ok x ∧ LeastSquares rows cols A b w x) ∨
    (zLESolveErrorMin 0 rows cols A b w ans = .fail ∧ ColsDependent rows cols A) := by
  unfold zLESolveErrorMin
  rcases zLESolveErrorMinDST_correct rows cols (fun i => i) (PermOn.id _) A b w hw ans with ⟨x, idx', e, -, h⟩ | ⟨e, h⟩
  · left; rw [e]; exact ⟨x, rfl, leastSquares_of rows cols A b w (fun k hk => (hw k hk).le) x h⟩
  · right; rw [e]; exact ⟨rfl, h⟩

example : (match zLESolveErrorMin (K := ℚ) 0 3 2 (fun i j => if j = 0 then 1 else (i : ℚ)) (fun i => if i = 2 then 5 else 1) none (fun _ => 0) with
    | .ok x => decide (x 0 = 1 / 3 ∧ x 1 = 2)
    | _ => false) = true := by decide +kernel

/-- The regularised normal equation is solved whenever the weights on the answer are positive. -/
theorem regular_solved (rows cols : Nat) (A : Nat → Nat → K) (we d : Nat → K) (hwe : ∀ k, k < rows → 0 ≤ we k) (hd : ∀ i, i < cols → 0 < d i) (r ans : Nat → K) :
    ∃ x idx', gaussSolveIdx 0 cols (fun i => i) (addDiag cols (zMatTQuadNC rows cols A (some we)) d) r ans = .ok (x, idx') ∧
      ∀ i, i < cols → (∑ j ∈ range cols, (∑ k ∈ range rows, we k * A k i * A k j) * x j) + d i * x i = r i := by
  have hrow : ∀ (x : Nat → K) i, i < cols → ∑ j ∈ range cols, addDiag cols (zMatTQuadNC rows cols A (some we)) d i j * x j =
      (∑ j ∈ range cols, (∑ k ∈ range rows, we k * A k i * A k j) * x j) + d i * x i := by
    intro x i hi
    have : d i * x i = ∑ j ∈ range cols, if i = j then d i * x j else 0 := by
      rw [sum_ite_eq, if_pos (mem_range.2 hi)]
    rw [this, ← sum_add_distrib]
    refine sum_congr rfl fun j hj => ?_
    rw [addDiag_spec, zMatTQuadNC_spec rows cols A (some we) i j hi (mem_range.1 hj)]
    by_cases e : i = j
    · rw [if_pos ⟨e, hi⟩, if_pos e]; simp only [wt]; ring
    · rw [if_neg (by tauto), if_neg e]; simp only [wt]; ring
  rcases gaussSolveIdx_exact cols (fun i => i) (PermOn.id _) (addDiag cols (zMatTQuadNC rows cols A (some we)) d) r ans with ⟨x, idx', e, -, hx⟩ | ⟨-, z, hz, h0⟩
  · refine ⟨x, idx', e, fun i hi => ?_⟩
    rw [← hrow x i hi, ← hx i hi]
    rfl
  · exfalso
    have h1 := quadForm rows cols A we z
    have h2 : ∑ i ∈ range cols, z i * (∑ j ∈ range cols, (∑ k ∈ range rows, we k * A k i * A k j) * z j) + ∑ i ∈ range cols, d i * z i ^ 2 = 0 := by
      rw [← sum_add_distrib]
      refine sum_eq_zero fun i hi => ?_
      have h3 := h0 i (mem_range.1 hi)
      rw [hrow z i (mem_range.1 hi)] at h3
      linear_combination z i * h3
    have h4 := lt_of_gap cols d z hd hz
    have h5 : 0 ≤ ∑ k ∈ range rows, we k * (Ax cols A z k) ^ 2 := sum_nonneg fun k hk => mul_nonneg (hwe k (mem_range.1 hk)) (sq_nonneg _)
    rw [h1] at h2
    linarith

/-- The unique minimiser of the regularised cost. -/
def Regularised (rows cols : Nat) (A : Nat → Nat → K) (b we d c x : Nat → K) : Prop :=
  ∀ z : Nat → K, (∃ j, j < cols ∧ z j ≠ x j) → sqErr rows cols A b we x + sqDist cols d c x < sqErr rows cols A b we z + sqDist cols d c z

theorem regularised_of (rows cols : Nat) (A : Nat → Nat → K) (b we d c x : Nat → K) (hwe : ∀ k, k < rows → 0 ≤ we k) (hd : ∀ i, i < cols → 0 < d i)
    (h : NormalEq rows cols A b we d c x) : Regularised rows cols A b we d c x := by
  intro z hne
  rw [cost_expand rows cols A b we d c x h z]
  have h1 := lt_of_gap cols d (fun j => z j - x j) hd (by obtain ⟨j, hj, h⟩ := hne; exact ⟨j, hj, sub_ne_zero.2 h⟩)
  have h2 : 0 ≤ ∑ k ∈ range rows, we k * (Ax cols A (fun j => z j - x j) k) ^ 2 := sum_nonneg fun k hk => mul_nonneg (hwe k (mem_range.1 hk)) (sq_nonneg _)
  linarith

/-- C76, `zLESolveSR` and `zLESolveSRBias`: for every matrix, even a singular one, and positive weights on the answer, there is an answer: the unique minimiser of the weighted squared error plus the
weighted squared norm. -/
theorem zLESolveSRBias_correct (rows cols : Nat) (A : Nat → Nat → K) (b wn we : Nat → K) (bias : K) (hwe : ∀ k, k < rows → 0 ≤ we k)
    (hd : ∀ i, i < cols → 0 < wn i + bias) (ans : Nat → K) :
    ∃ x, zLESolveSRBias 0 rows cols A b wn we bias ans = .ok x ∧ Regularised rows cols A b we (fun i => wn i + bias) (fun _ => 0) x := by
  obtain ⟨x, idx', e, hx⟩ := regular_solved rows cols A we (fun i => wn i + bias) hwe hd (mulTVec rows cols A (amp rows (some we) b) (fun _ => 0)) ans
  unfold zLESolveSRBias
  rw [e]
  refine ⟨x, rfl, regularised_of rows cols A b we _ _ x hwe hd fun i hi => ?_⟩
  rw [hx i hi, rhs_spec _ _ _ _ _ _ hi, mul_zero, add_zero]
  rfl

/-- C76, `zLESolveSRRef`: the unique minimiser of the weighted squared error plus the weighted squared distance from the reference. -/
theorem zLESolveSRRef_correct (rows cols : Nat) (A : Nat → Nat → K) (b wn we ref : Nat → K) (hwe : ∀ k, k < rows → 0 ≤ we k) (hd : ∀ i, i < cols → 0 < wn i) (ans : Nat → K) :
    ∃ x, zLESolveSRRef 0 rows cols A b wn we ref ans = .ok x ∧ Regularised rows cols A b we wn ref x := by
  obtain ⟨x, idx', e, hx⟩ := regular_solved rows cols A we wn hwe hd
    (forUp 0 cols (fun i v => set1 v i (v i + wn i * ref i)) (mulTVec rows cols A (amp rows (some we) b) (fun _ => 0))) ans
  unfold zLESolveSRRef
  rw [e]
  refine ⟨x, rfl, regularised_of rows cols A b we _ _ x hwe hd fun i hi => ?_⟩
  rw [hx i hi, forUp_set1 (fun i v => v i + wn i * ref i) _
    (fun i => mulTVec rows cols A (amp rows (some we) b) (fun _ => 0) i + wn i * ref i) (fun k t h1 h2 h3 h4 => by rw [h4 k (by omega)])]
  beta_reduce
  rw [if_pos ⟨Nat.zero_le _, hi⟩, rhs_spec _ _ _ _ _ _ hi]
  rfl

/-- C76, `zLESolveSRAux`: solving for the residual and adding the auxiliary vector gives the same minimiser as `zLESolveSRRef` with that vector. -/
theorem zLESolveSRAux_correct (rows cols : Nat) (A : Nat → Nat → K) (b wn we aux : Nat → K) (hwe : ∀ k, k < rows → 0 ≤ we k) (hd : ∀ i, i < cols → 0 < wn i) (ans : Nat → K) :
    ∃ x, zLESolveSRAux 0 rows cols A b wn we ans aux = .ok x ∧ Regularised rows cols A b we wn aux x := by
  obtain ⟨y, e, hy⟩ := zLESolveSRBias_correct rows cols A (zLEResidual rows cols A b aux) wn we 0 hwe (fun i hi => by rw [add_zero]; exact hd i hi) ans
  unfold zLESolveSRAux
  rw [e]
  refine ⟨_, rfl, fun z hne => ?_⟩
  have hx : ∀ j, j < cols → addTo cols y aux j = y j + aux j := fun j hj => by rw [addTo_spec, if_pos hj]
  have h1 := hy (fun j => z j - aux j) (by
    obtain ⟨j, hj, h⟩ := hne
    refine ⟨j, hj, fun h' => h ?_⟩
    beta_reduce at h'
    rw [hx j hj]
    linear_combination h')
  have e1 : ∀ v : Nat → K, sqErr rows cols A (zLEResidual rows cols A b aux) we (fun j => v j - aux j) = sqErr rows cols A b we v := by
    intro v
    unfold sqErr
    refine sum_congr rfl fun k hk => ?_
    rw [zLEResidual_spec _ _ _ _ _ _ (mem_range.1 hk), Ax_sub]
    ring
  have e2 : ∀ v : Nat → K, sqDist cols (fun i => wn i + 0) (fun _ => 0) (fun j => v j - aux j) = sqDist cols wn aux v := by
    intro v
    unfold sqDist
    exact sum_congr rfl fun k hk => by ring
  have e3 : sqErr rows cols A (zLEResidual rows cols A b aux) we y = sqErr rows cols A b we (addTo cols y aux) := by
    rw [← e1]
    unfold sqErr
    refine sum_congr rfl fun k _ => ?_
    rw [Ax_congr cols A y (fun j => addTo cols y aux j - aux j) (fun j hj => by rw [hx j hj]; ring)]
  have e4 : sqDist cols (fun i => wn i + 0) (fun _ => 0) y = sqDist cols wn aux (addTo cols y aux) := by
    unfold sqDist
    refine sum_congr rfl fun k hk => ?_
    rw [hx k (mem_range.1 hk)]
    ring
  rw [e1, e2, e3, e4] at h1
  exact h1

/-- A singular matrix, which the regularisation makes solvable: `x₀ + x₁ = 2` twice with unit weights. -/
example : (match zLESolveSRBias (K := ℚ) 0 2 2 (fun _ _ => 1) (fun _ => 2) (fun _ => 1) (fun _ => 1) 1 (fun _ => 0) with
    | .ok x => decide (x 0 = 2 / 3 ∧ x 1 = 2 / 3)
    | _ => false) = true := by decide +kernel

example : (match zLESolveSRAux (K := ℚ) 0 1 2 (fun _ _ => 1) (fun _ => 2) (fun _ => 1) (fun _ => 1) (fun _ => 7) (fun j => j), zLESolveSRRef (K := ℚ) 0 1 2 (fun _ _ => 1) (fun _ => 2) (fun _ => 1) (fun _ => 1) (fun j => j) (fun _ => 7) with
    | .ok x, .ok y => decide (x 0 = y 0 ∧ x 1 = y 1 ∧ x 0 = 1 / 3)
    | _, _ => false) = true := by decide +kernel

end Zm.LE
