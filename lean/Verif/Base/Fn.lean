import Verif.Base.Res
import Mathlib.Algebra.BigOperators.Group.Finset.Basic
import Mathlib.Algebra.BigOperators.Intervals

/-!
# Vectors, matrices and indices as functions

For the numerical algorithms a `zVec` is a function `Nat → α`, a `zMat` a function `Nat → Nat → α` and a `zIndex` a
function `Nat → Nat`; sizes are passed separately.  An assignment is `set1`/`set2`.  (Bounds of the accesses of these
algorithms are not modelled here; the memory model of `Base/Res.lean` is used where bounds matter.)
-/

namespace Zm
variable {α : Type*}

/-- `v[i] = x` -/
def set1 (v : Nat → α) (i : Nat) (x : α) : Nat → α := fun j => if j = i then x else v j

/-- `m[i][j] = x` -/
def set2 (m : Nat → Nat → α) (i j : Nat) (x : α) : Nat → Nat → α := fun k l => if k = i ∧ l = j then x else m k l

@[simp] theorem set1_same (v : Nat → α) (i : Nat) (x : α) : set1 v i x i = x := by simp [set1]
theorem set1_ne (v : Nat → α) {i j : Nat} (x : α) (h : j ≠ i) : set1 v i x j = v j := by simp [set1, h]
@[simp] theorem set2_same (m : Nat → Nat → α) (i j : Nat) (x : α) : set2 m i j x i j = x := by simp [set2]
theorem set2_ne (m : Nat → Nat → α) {i j k l : Nat} (x : α) (h : ¬ (k = i ∧ l = j)) : set2 m i j x k l = m k l := by
  unfold set2; rw [if_neg h]
theorem set2_ne_row (m : Nat → Nat → α) {i j k l : Nat} (x : α) (h : k ≠ i) : set2 m i j x k l = m k l := by
  simp [set2, h]
theorem set2_ne_col (m : Nat → Nat → α) {i j k l : Nat} (x : α) (h : l ≠ j) : set2 m i j x k l = m k l := by
  simp [set2, h]

/-- Exchange of two entries of a vector or index. -/
def swap1 (v : Nat → α) (i j : Nat) : Nat → α := fun k => if k = i then v j else if k = j then v i else v k

/-- Closed form of a loop that assigns `v[k]` for `k = lo..hi-1`. -/
theorem forUp_set1 {lo hi : Nat} (F : Nat → (Nat → α) → α) (v : Nat → α) (G : Nat → α)
    (h : ∀ k t, lo ≤ k → k < hi → (∀ j, lo ≤ j → j < k → t j = G j) → (∀ j, ¬ (lo ≤ j ∧ j < k) → t j = v j) → F k t = G k) :
    forUp lo hi (fun k t => set1 t k (F k t)) v = fun j => if lo ≤ j ∧ j < hi then G j else v j := by
  by_cases hle : lo ≤ hi
  · have := forUp_inv (fun k (t : Nat → α) => set1 t k (F k t)) v
      (fun k t => (∀ j, lo ≤ j → j < k → t j = G j) ∧ (∀ j, ¬ (lo ≤ j ∧ j < k) → t j = v j)) hle
      ⟨by intro j h1 h2; omega, by intros; rfl⟩
      (by
        rintro k t h1 h2 ⟨e1, e2⟩
        constructor
        · intro j hj hj'
          by_cases hjk : j = k
          · subst hjk; rw [set1_same]; exact h j t h1 h2 e1 e2
          · rw [set1_ne _ _ hjk]; exact e1 j hj (by omega)
        · intro j hj
          rw [set1_ne _ _ (by omega)]; exact e2 j (by omega))
    funext j
    by_cases hj : lo ≤ j ∧ j < hi
    · rw [if_pos hj, this.1 j hj.1 hj.2]
    · rw [if_neg hj, this.2 j hj]
  · rw [forUp_of_le (by omega)]
    funext j
    rw [if_neg (by omega)]

/-- Closed form of a loop over row `q` that assigns `m[q][k]` for `k = lo..hi-1`. -/
theorem forUp_row {lo hi : Nat} (q : Nat) (F : Nat → (Nat → Nat → α) → α) (m : Nat → Nat → α) (G : Nat → α)
    (h : ∀ k t, lo ≤ k → k < hi → (∀ i j, ¬ (i = q ∧ lo ≤ j ∧ j < k) → t i j = m i j) → F k t = G k) :
    forUp lo hi (fun k t => set2 t q k (F k t)) m = fun i j => if i = q ∧ lo ≤ j ∧ j < hi then G j else m i j := by
  by_cases hle : lo ≤ hi
  · have := forUp_inv (fun k (t : Nat → Nat → α) => set2 t q k (F k t)) m
      (fun k t => (∀ j, lo ≤ j → j < k → t q j = G j) ∧ (∀ i j, ¬ (i = q ∧ lo ≤ j ∧ j < k) → t i j = m i j)) hle
      ⟨by intro j h1 h2; omega, by intros; rfl⟩
      (by
        rintro k t h1 h2 ⟨e1, e2⟩
        constructor
        · intro j hj hj'
          by_cases hjk : j = k
          · subst hjk; rw [set2_same]; exact h j t h1 h2 e2
          · rw [set2_ne_col _ _ hjk]; exact e1 j hj (by omega)
        · intro i j hj
          rw [set2_ne _ _ (by rintro ⟨rfl, rfl⟩; exact hj ⟨rfl, h1, by omega⟩)]
          exact e2 i j (by rintro ⟨rfl, h3, h4⟩; exact hj ⟨rfl, h3, by omega⟩))
    funext i j
    by_cases hj : i = q ∧ lo ≤ j ∧ j < hi
    · rw [if_pos hj]; obtain ⟨rfl, h1, h2⟩ := hj; exact this.1 j h1 h2
    · rw [if_neg hj, this.2 i j hj]
  · rw [forUp_of_le (by omega)]
    funext i j
    rw [if_neg (by omega)]

/-- Closed form of a loop over column `c` that assigns `m[k][c]` for `k = lo..hi-1`. -/
theorem forUp_col {lo hi : Nat} (c : Nat) (F : Nat → (Nat → Nat → α) → α) (m : Nat → Nat → α) (G : Nat → α)
    (h : ∀ k t, lo ≤ k → k < hi → (∀ i j, ¬ (j = c ∧ lo ≤ i ∧ i < k) → t i j = m i j) → F k t = G k) :
    forUp lo hi (fun k t => set2 t k c (F k t)) m = fun i j => if j = c ∧ lo ≤ i ∧ i < hi then G i else m i j := by
  by_cases hle : lo ≤ hi
  · have := forUp_inv (fun k (t : Nat → Nat → α) => set2 t k c (F k t)) m
      (fun k t => (∀ i, lo ≤ i → i < k → t i c = G i) ∧ (∀ i j, ¬ (j = c ∧ lo ≤ i ∧ i < k) → t i j = m i j)) hle
      ⟨by intro j h1 h2; omega, by intros; rfl⟩
      (by
        rintro k t h1 h2 ⟨e1, e2⟩
        constructor
        · intro j hj hj'
          by_cases hjk : j = k
          · subst hjk; rw [set2_same]; exact h j t h1 h2 e2
          · rw [set2_ne_row _ _ hjk]; exact e1 j hj (by omega)
        · intro i j hj
          rw [set2_ne _ _ (by rintro ⟨rfl, rfl⟩; exact hj ⟨rfl, h1, by omega⟩)]
          exact e2 i j (by rintro ⟨rfl, h3, h4⟩; exact hj ⟨rfl, h3, by omega⟩))
    funext i j
    by_cases hj : j = c ∧ lo ≤ i ∧ i < hi
    · rw [if_pos hj]; obtain ⟨rfl, h1, h2⟩ := hj; exact this.1 i h1 h2
    · rw [if_neg hj, this.2 i j hj]
  · rw [forUp_of_le (by omega)]
    funext i j
    rw [if_neg (by omega)]

open Finset

/-- `for(k=lo;k<hi;k++) x += f(k)` -/
theorem forUp_add [AddCommMonoid α] (lo hi : Nat) (f : Nat → α) (x : α) (hle : lo ≤ hi) :
    forUp lo hi (fun k x => x + f k) x = x + ∑ k ∈ Ico lo hi, f k :=
  forUp_inv (fun k x => x + f k) x (fun k t => t = x + ∑ k ∈ Ico lo k, f k) hle (by simp)
    (by rintro k t h1 h2 rfl; rw [sum_Ico_succ_top h1, add_assoc])

/-- `for(k=lo;k<hi;k++) x -= f(k)` -/
theorem forUp_sub [AddCommGroup α] (lo hi : Nat) (f : Nat → α) (x : α) (hle : lo ≤ hi) :
    forUp lo hi (fun k x => x - f k) x = x - ∑ k ∈ Ico lo hi, f k :=
  forUp_inv (fun k x => x - f k) x (fun k t => t = x - ∑ k ∈ Ico lo k, f k) hle (by simp)
    (by rintro k t h1 h2 rfl; rw [sum_Ico_succ_top h1, sub_sub])

/-- `for(k=hi-1;k>=lo;k--) x -= f(k)` -/
theorem forDown_sub [AddCommGroup α] (lo hi : Nat) (f : Nat → α) (x : α) (hle : lo ≤ hi) :
    forDown lo hi (fun k x => x - f k) x = x - ∑ k ∈ Ico lo hi, f k :=
  forDown_inv (fun k x => x - f k) x (fun k t => t = x - ∑ k ∈ Ico k hi, f k) hle (by simp)
    (by rintro k t h1 h2 rfl; rw [sum_eq_sum_Ico_succ_bot h2, add_comm (f k), sub_sub])

theorem forUpM_cons {σ : Type u} {lo hi : Nat} (h : lo < hi) (f : Nat → σ → Res σ) (s : σ) :
    forUpM lo hi f s = (f lo s).bind (forUpM (lo+1) hi f) := by
  unfold forUpM
  obtain ⟨k, hk⟩ : ∃ k, hi - lo = k + 1 := ⟨hi - lo - 1, by omega⟩
  rw [hk, show hi - (lo+1) = k by omega]
  rfl

theorem forUpM_nil {σ : Type u} {lo hi : Nat} (h : hi ≤ lo) (f : Nat → σ → Res σ) (s : σ) : forUpM lo hi f s = .ok s := by
  unfold forUpM
  rw [show hi - lo = 0 by omega]
  rfl

theorem forUpM_split {σ : Type u} {lo mid hi : Nat} (h1 : lo ≤ mid) (h2 : mid ≤ hi) (f : Nat → σ → Res σ) (s : σ) :
    forUpM lo hi f s = (forUpM lo mid f s).bind (forUpM mid hi f) := by
  obtain ⟨k, hk⟩ : ∃ k, k = mid - lo := ⟨_, rfl⟩
  induction k generalizing lo s with
  | zero =>
    have : mid = lo := by omega
    subst this
    rw [forUpM_nil (le_refl mid)]
    rfl
  | succ k ih =>
    rw [forUpM_cons (show lo < hi by omega), forUpM_cons (show lo < mid by omega)]
    cases hf : f lo s with
    | ok t => simp only [Res.bind]; exact ih (by omega) t (by omega)
    | fail => rfl
    | ub => rfl

end Zm
