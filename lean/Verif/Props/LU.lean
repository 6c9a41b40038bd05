import Verif.Props.LE

/-! # C15 (triangular solves), C16 (LU decomposition), C19 (tridiagonal systems) -/

set_option linter.unusedSectionVars false

namespace Zm.LE
open Zm Misc Finset
variable {K : Type*} [Field K] [LinearOrder K] [IsStrictOrderedRing K]

/-! ## Triangular solves -/

/-- **C15** forward substitution: the answer `y` satisfies row `idx[i]` of `L y = b`, for a lower-triangular `L` (in
permuted row order) with non-zero diagonal. -/
theorem zLESolveL_correct (n : Nat) (l : Nat → Nat → K) (b ans : Nat → K) (idx : Nat → Nat)
    (hd : ∀ i, i < n → l (idx i) i ≠ 0) (ht : ∀ i j, i < j → j < n → l (idx i) j = 0) :
    ∀ i, i < n → ∑ j ∈ range n, l (idx i) j * zLESolveL n l b ans idx j = b (idx i) := by
  have := forUp_inv (lo := 0) (hi := n) (fun i (ans : Nat → K) =>
      set1 ans i (forUp 0 i (fun j x => x - l (idx i) j * ans j) (b (idx i)) / l (idx i) i)) ans
    (fun k t => ∀ i, i < k → ∑ j ∈ range (i+1), l (idx i) j * t j = b (idx i)) (Nat.zero_le _) (by intro i hi; omega)
    (by
      intro k t _ hk h i hi
      by_cases hik : i = k
      · subst hik
        rw [sum_range_succ, set1_same, forUp_sub _ _ _ _ (Nat.zero_le _), mul_div_cancel₀ _ (hd i hk), ← range_eq_Ico]
        have : ∑ j ∈ range i, l (idx i) j * set1 t i ((b (idx i) - ∑ k ∈ range i, l (idx i) k * t k) / l (idx i) i) j =
            ∑ j ∈ range i, l (idx i) j * t j := by
          refine sum_congr rfl fun j hj => ?_
          rw [mem_range] at hj
          rw [set1_ne _ _ (by omega)]
        rw [this]; ring
      · rw [← h i (by omega)]
        refine sum_congr rfl fun j hj => ?_
        rw [mem_range] at hj
        rw [set1_ne _ _ (by omega)])
  intro i hi
  rw [range_eq_Ico, ← sum_Ico_consecutive _ (Nat.zero_le (i+1)) (by omega : i + 1 ≤ n), ← range_eq_Ico]
  rw [show ∑ j ∈ Ico (i+1) n, l (idx i) j * zLESolveL n l b ans idx j = 0 from
    sum_eq_zero fun j hj => by rw [mem_Ico] at hj; rw [ht i j (by omega) hj.2, zero_mul], add_zero]
  exact this i hi

/-- **C15** backward substitution, for a *unit* upper-triangular `U`.  The code never divides by the diagonal. -/
theorem zLESolveU_correct_partial (n : Nat) (u : Nat → Nat → K) (b ans : Nat → K) (hd : ∀ i, i < n → u i i = 1)
    (ht : ∀ i j, j < i → i < n → u i j = 0) : ∀ i, i < n → ∑ j ∈ range n, u i j * zLESolveU n u b ans j = b i := by
  have hb := backward_spec (K := K) (V := K) n { a := u, b := b, idx := fun i => i } ans
  intro i hi
  have e : ∀ j, zLESolveU n u b ans j = backward (K := K) (V := K) n { a := u, b := b, idx := fun i => i } ans j := fun _ => rfl
  simp only [e]
  rw [range_eq_Ico, ← sum_Ico_consecutive _ (Nat.zero_le i) hi.le, sum_eq_zero, zero_add, sum_eq_sum_Ico_succ_bot hi,
    hd i hi, one_mul]
  · conv_lhs => rw [hb i hi]
    simp only [smul_eq_mul]
    ring
  · intro j hj
    rw [mem_Ico] at hj
    rw [ht i j hj.2 hi, zero_mul]

/-- **C15 is violated** for an upper-triangular matrix whose diagonal is not all ones (`zm_le.h` only asks for an
upper-triangular matrix): whenever the last diagonal entry is not 1 and the last component of `b` is not 0, the answer
does not satisfy the last equation. -/
theorem zLESolveU_nonunit_wrong (n : Nat) (u : Nat → Nat → K) (b ans : Nat → K) (ht : ∀ i j, j < i → i < n + 1 → u i j = 0)
    (hd : u n n ≠ 1) (hb : b n ≠ 0) : ∑ j ∈ range (n+1), u n j * zLESolveU (n+1) u b ans j ≠ b n := by
  have h := backward_spec (K := K) (V := K) (n+1) { a := u, b := b, idx := fun i => i } ans n (by omega)
  have e : ∀ j, zLESolveU (n+1) u b ans j = backward (K := K) (V := K) (n+1) { a := u, b := b, idx := fun i => i } ans j := fun _ => rfl
  rw [sum_range_succ, sum_eq_zero, zero_add, e, h]
  · simp only [Ico_self, sum_empty, sub_zero]
    intro h1
    exact hd (mul_right_cancel₀ hb (h1.trans (one_mul _).symm))
  · intro j hj
    rw [ht n j (mem_range.1 hj) (by omega), zero_mul]

/-- The hypotheses of the violation are met by `[2] x = [2]`. -/
example : (fun _ _ => (2 : ℚ)) 0 0 ≠ 1 ∧ (fun _ : Nat => (2:ℚ)) 0 ≠ 0 := by norm_num

/-- **C15** `zLESolveLU` solves `A x = b` whenever `A` is the product `L U` (rows of `A` and `L` in the order of the
index), `L` lower triangular with non-zero diagonal and `U` unit upper triangular. -/
theorem zLESolveLU_correct (n : Nat) (A l u : Nat → Nat → K) (b ans : Nat → K) (idx : Nat → Nat) (hp : PermOn n idx)
    (hA : ∀ i j, i < n → j < n → A i j = ∑ t ∈ range n, l i t * u t j)
    (hl : ∀ i, i < n → l (idx i) i ≠ 0) (hlt : ∀ i j, i < j → j < n → l (idx i) j = 0)
    (hu : ∀ i, i < n → u i i = 1) (hut : ∀ i j, j < i → i < n → u i j = 0) :
    ∀ i, i < n → ∑ j ∈ range n, A i j * zLESolveLU n l u b ans idx j = b i := by
  intro i hi
  obtain ⟨k, hk, rfl⟩ := hp.surj hi
  unfold zLESolveLU
  have h1 := zLESolveL_correct n l b (fun _ => 0) idx hl hlt k hk
  have h2 := zLESolveU_correct_partial n u (zLESolveL n l b (fun _ => 0) idx) ans hu hut
  rw [← h1]
  have : ∀ j ∈ range n, A (idx k) j * zLESolveU n u (zLESolveL n l b (fun _ => 0) idx) ans j =
      ∑ t ∈ range n, l (idx k) t * (u t j * zLESolveU n u (zLESolveL n l b (fun _ => 0) idx) ans j) := by
    intro j hj
    rw [hA _ _ hi (mem_range.1 hj), sum_mul]
    exact sum_congr rfl fun t _ => by ring
  rw [sum_congr rfl this, sum_comm]
  refine sum_congr rfl fun t ht => ?_
  rw [← mul_sum, h2 t (mem_range.1 ht)]

/-! ## LU decomposition -/

/-- Closed form of a loop that rewrites column `c` of the rows `idx[lo..n-1]`. -/
theorem permCol_spec (n lo c : Nat) (idx : Nat → Nat) (hp : PermOn n idx) (g : Nat → K → K) (m : Nat → Nat → K) :
    ∀ k, k < n → ∀ b, forUp lo n (fun i t => set2 t (idx i) c (g i (t (idx i) c))) m (idx k) b =
      if b = c ∧ lo ≤ k then g k (m (idx k) c) else m (idx k) b := by
  by_cases hle : lo ≤ n
  · have := forUp_inv (lo := lo) (hi := n) (fun i (t : Nat → Nat → K) => set2 t (idx i) c (g i (t (idx i) c))) m
      (fun j t => ∀ k, k < n → ∀ b, t (idx k) b = if b = c ∧ lo ≤ k ∧ k < j then g k (m (idx k) c) else m (idx k) b) hle
      (by intro k hk b; rw [if_neg (by omega)])
      (by
        intro j t h1 h2 h k hk b
        by_cases hkj : k = j
        · subst hkj
          by_cases hb : b = c
          · subst hb
            rw [set2_same, if_pos ⟨rfl, h1, by omega⟩, h k hk b, if_neg (by omega)]
          · rw [set2_ne_col _ _ hb, h k hk b, if_neg (by tauto), if_neg (by tauto)]
        · rw [set2_ne_row _ _ (fun e => hkj (hp.2 k j hk h2 e)), h k hk b]
          by_cases hc : b = c ∧ lo ≤ k ∧ k < j
          · rw [if_pos hc, if_pos ⟨hc.1, hc.2.1, by omega⟩]
          · rw [if_neg hc, if_neg (by omega)])
    intro k hk b
    rw [this k hk b]
    by_cases hc : b = c ∧ lo ≤ k
    · rw [if_pos ⟨hc.1, hc.2, hk⟩, if_pos hc]
    · rw [if_neg (by tauto), if_neg hc]
  · intro k hk b
    rw [forUp_of_le (by omega), if_neg (by omega)]

/-- Closed form of the trailing update. -/
theorem permBlock_spec (n lo : Nat) (clo chi : Nat) (idx : Nat → Nat) (hp : PermOn n idx) (g : Nat → Nat → K) (m : Nat → Nat → K) :
    ∀ k, k < n → ∀ b, forUp clo chi (fun j m => forUp lo n (fun i m => set2 m (idx i) j (m (idx i) j - g i j)) m) m (idx k) b =
      if (clo ≤ b ∧ b < chi) ∧ lo ≤ k then m (idx k) b - g k b else m (idx k) b := by
  by_cases hle : clo ≤ chi
  · have := forUp_inv (lo := clo) (hi := chi) (fun j (m : Nat → Nat → K) =>
        forUp lo n (fun i m => set2 m (idx i) j (m (idx i) j - g i j)) m) m
      (fun j t => ∀ k, k < n → ∀ b, t (idx k) b = if (clo ≤ b ∧ b < j) ∧ lo ≤ k then m (idx k) b - g k b else m (idx k) b) hle
      (by intro k hk b; rw [if_neg (by omega)])
      (by
        intro j t h1 h2 h k hk b
        rw [permCol_spec n lo j idx hp (fun i x => x - g i j) t k hk b]
        by_cases hb : b = j
        · subst hb
          by_cases hlo : lo ≤ k
          · rw [if_pos ⟨rfl, hlo⟩, if_pos ⟨⟨h1, by omega⟩, hlo⟩, h k hk b, if_neg (by omega)]
          · rw [if_neg (by tauto), if_neg (by tauto), h k hk b, if_neg (by omega)]
        · rw [if_neg (by tauto), h k hk b]
          by_cases hc : (clo ≤ b ∧ b < j) ∧ lo ≤ k
          · rw [if_pos hc, if_pos ⟨⟨hc.1.1, by omega⟩, hc.2⟩]
          · rw [if_neg hc, if_neg (by omega)])
    exact this
  · intro k hk b
    rw [forUp_of_le (by omega), if_neg (by omega)]

/-- `U` has its leading ones on the diagonal, i.e. the pivots were found in the leading columns. -/
def LeadingPivots (st : LUS K) : Prop := ∀ t, t < st.r → st.u t t = 1

structure LUInv (tol : K) (rows cols c : Nat) (M0 : Nat → Nat → K) (st : LUS K) : Prop where
  perm : PermOn rows st.idx
  rc : st.r ≤ c
  rr : st.r ≤ rows
  u0 : ∀ t j, st.r ≤ t → st.u t j = 0
  fac : LeadingPivots st → (∀ k, k < rows → ∀ j, j < cols → M0 (st.idx k) j =
      ∑ t ∈ range st.r, st.l (st.idx k) t * st.u t j + if k < st.r ∨ j < st.r then 0 else st.m (st.idx k) j) ∧
    (∀ k j, k < rows → k < j → st.l (st.idx k) j = 0) ∧ (∀ k j, k < rows → st.r ≤ j → st.l (st.idx k) j = 0) ∧
    (∀ k, k < st.r → tol < |st.l (st.idx k) k|) ∧ (∀ t j, j < t → st.u t j = 0) ∧
    (∀ k j, st.r ≤ k → k < rows → st.r ≤ j → j < c → |st.m (st.idx k) j| ≤ tol)

theorem lu_pivot {tol : K} {rows cols c : Nat} {M0 : Nat → Nat → K} {st : LUS K} (hr : st.r < rows)
    (h : LUInv tol rows cols c M0 st) : LUInv tol rows cols c M0 { st with idx := zMatPivoting rows st.m st.idx st.r c } := by
  obtain ⟨p1, p2, p3, -⟩ := zMatPivoting_props rows st.m st.idx st.r c hr h.perm
  generalize zMatPivoting rows st.m st.idx st.r c = idx at *
  have key : ∀ k, k < rows → ∃ k', k' < rows ∧ idx k = st.idx k' ∧ (k < st.r → k' = k) ∧ (st.r ≤ k → st.r ≤ k') := by
    intro k hk
    by_cases hki : k < st.r
    · exact ⟨k, hk, p2 k hki, fun _ => rfl, fun h => h⟩
    · obtain ⟨k', g1, g2, g3⟩ := p3 k (by omega) hk
      exact ⟨k', g2, g3, by omega, fun _ => g1⟩
  refine ⟨p1, h.rc, h.rr, h.u0, fun hD => ?_⟩
  obtain ⟨f1, f2, f3, f4, f5, f6⟩ := h.fac hD
  refine ⟨?_, ?_, ?_, ?_, f5, ?_⟩
  · intro k hk j hj
    obtain ⟨k', g1, g2, g3, g4⟩ := key k hk
    simp only [g2]
    rw [f1 k' g1 j hj]
    congr 1
    by_cases hc : k' < st.r ∨ j < st.r
    · rw [if_pos hc, if_pos (by omega)]
    · rw [if_neg hc, if_neg (by omega)]
  · intro k j hk hkj
    obtain ⟨k', g1, g2, g3, g4⟩ := key k hk
    simp only [g2]
    by_cases hkr : k < st.r
    · rw [g3 hkr]; exact f2 k j hk hkj
    · exact f3 k' j g1 (by omega)
  · intro k j hk hj
    obtain ⟨k', g1, g2, g3, g4⟩ := key k hk
    simp only [g2]
    exact f3 k' j g1 hj
  · intro k hk
    simp only [p2 k hk]
    exact f4 k hk
  · intro k j hk hkr hj hjc
    obtain ⟨k', g1, g2, g3, g4⟩ := key k hkr
    simp only [g2]
    exact f6 k' j (g4 hk) g1 hj hjc

theorem lu_step {tol : K} (h0 : 0 ≤ tol) {rows cols c : Nat} (hc : c < cols) {M0 : Nat → Nat → K} {st st' : LUS K}
    (h : LUInv tol rows cols c M0 st) (hs : luStep tol rows cols c st = .ok st') : LUInv tol rows cols (c+1) M0 st' := by
  unfold luStep at hs
  by_cases hr : st.r < rows
  · rw [if_neg (by omega)] at hs
    have h' := lu_pivot hr h
    obtain ⟨-, -, -, hmax⟩ := zMatPivoting_props rows st.m st.idx st.r c hr h.perm
    generalize hidx : zMatPivoting rows st.m st.idx st.r c = idx at *
    obtain ⟨perm, rc, rr, u0, fac⟩ := h'
    simp only at perm rc rr u0 fac
    simp only [hidx] at hs
    by_cases htol : |st.m (idx st.r) c| ≤ tol
    · rw [if_pos (by simp [zIsTol, htol])] at hs
      injection hs with hs
      subst hs
      refine ⟨perm, by simp only; omega, rr, u0, fun hD => ?_⟩
      obtain ⟨f1, f2, f3, f4, f5, f6⟩ := fac hD
      refine ⟨f1, f2, f3, f4, f5, ?_⟩
      intro k j h1 h2 h3 h4
      by_cases hjc : j = c
      · subst hjc
        exact (hmax k h1 h2).trans htol
      · exact f6 k j h1 h2 h3 (by omega)
    · rw [if_neg (by simp [zIsTol, htol])] at hs
      split at hs
      · cases hs
      · injection hs with hs
        subst hs
        -- closed forms of the four loops
        have hu : forUp (c+1) cols (fun i u => set2 u st.r i (st.m (idx st.r) i / st.m (idx st.r) c)) (set2 st.u st.r c 1) =
            fun i j => if i = st.r ∧ c + 1 ≤ j ∧ j < cols then st.m (idx st.r) j / st.m (idx st.r) c else set2 st.u st.r c 1 i j := by
          refine forUp_row st.r (fun i _ => st.m (idx st.r) i / st.m (idx st.r) c) _ _ ?_
          intro k t _ _ _; rfl
        have hl := permCol_spec rows (st.r+1) c idx perm (fun i _ => st.m (idx i) c) (set2 st.l (idx st.r) st.r (st.m (idx st.r) c))
        generalize hl' : forUp (st.r+1) rows (fun i l => set2 l (idx i) c (st.m (idx i) c))
          (set2 st.l (idx st.r) st.r (st.m (idx st.r) c)) = l' at hl ⊢
        have hm := permBlock_spec rows (st.r+1) (c+1) cols idx perm (fun i j => l' (idx i) c *
          (forUp (c+1) cols (fun i u => set2 u st.r i (st.m (idx st.r) i / st.m (idx st.r) c)) (set2 st.u st.r c 1)) st.r j) st.m
        generalize hm' : forUp (c+1) cols (fun j m => forUp (st.r+1) rows (fun i m => set2 m (idx i) j (m (idx i) j - l' (idx i) c *
          (forUp (c+1) cols (fun i u => set2 u st.r i (st.m (idx st.r) i / st.m (idx st.r) c)) (set2 st.u st.r c 1)) st.r j)) m) st.m = m' at hm ⊢
        rw [hu] at hm ⊢
        clear hl' hm' hu
        refine ⟨perm, by simp only; omega, by simp only; omega, ?_, fun hD => ?_⟩
        · intro t j ht
          simp only at ht ⊢
          rw [if_neg (by omega), set2_ne_row _ _ (by omega)]
          exact u0 t j (by omega)
        · simp only [LeadingPivots] at hD
          have hcr : c = st.r := by
            by_contra hne
            have := hD st.r (by omega)
            rw [if_neg (by omega), set2_ne_col _ _ (by omega), u0 st.r st.r (le_refl _)] at this
            exact zero_ne_one this
          have hDold : ∀ t, t < st.r → st.u t t = 1 := by
            intro t ht
            have := hD t (by omega)
            rwa [if_neg (by omega), set2_ne_row _ _ (by omega)] at this
          obtain ⟨f1, f2, f3, f4, f5, f6⟩ := fac hDold
          clear f6 hD
          subst hcr
          have hpiv : st.m (idx st.r) st.r ≠ 0 := by
            intro hz; rw [hz, abs_zero] at htol
            exact htol h0
          have hne : ∀ k, k < rows → k ≠ st.r → idx k ≠ idx st.r := fun k hk hkr e => hkr (perm.2 k st.r hk hr e)
          -- entries of the new `L`
          have L1 : ∀ k, k < rows → ∀ t, t ≠ st.r → l' (idx k) t = st.l (idx k) t := by
            intro k hk t ht
            rw [hl k hk t, if_neg (by tauto), set2_ne_col _ _ ht]
          have L2 : ∀ k, k < rows → st.r ≤ k → l' (idx k) st.r = st.m (idx k) st.r := by
            intro k hk hrk
            rw [hl k hk st.r]
            by_cases hkr : k = st.r
            · subst hkr; rw [if_neg (by omega), set2_same]
            · rw [if_pos ⟨rfl, by omega⟩]
          have L3 : ∀ k, k < st.r → l' (idx k) st.r = 0 := by
            intro k hk
            rw [hl k (by omega) st.r, if_neg (by omega), set2_ne_row _ _ (hne k (by omega) (by omega))]
            exact f3 k st.r (by omega) (le_refl _)
          -- entries of the new `U`
          have U1 : ∀ t, t < st.r → ∀ j, (if t = st.r ∧ st.r + 1 ≤ j ∧ j < cols then st.m (idx st.r) j / st.m (idx st.r) st.r
              else set2 st.u st.r st.r 1 t j) = st.u t j := by
            intro t ht j
            rw [if_neg (by omega), set2_ne_row _ _ (by omega)]
          have U2 : ∀ j, j < cols → st.r ≤ j → (if st.r = st.r ∧ st.r + 1 ≤ j ∧ j < cols then st.m (idx st.r) j / st.m (idx st.r) st.r
              else set2 st.u st.r st.r 1 st.r j) = st.m (idx st.r) j / st.m (idx st.r) st.r := by
            intro j hj hrj
            by_cases hjr : j = st.r
            · subst hjr; rw [if_neg (by omega), set2_same, div_self hpiv]
            · rw [if_pos ⟨rfl, by omega, hj⟩]
          have U3 : ∀ j, j < st.r → (if st.r = st.r ∧ st.r + 1 ≤ j ∧ j < cols then st.m (idx st.r) j / st.m (idx st.r) st.r
              else set2 st.u st.r st.r 1 st.r j) = 0 := by
            intro j hj
            rw [if_neg (by omega), set2_ne_col _ _ (by omega), u0 _ _ (le_refl _)]
          refine ⟨?_, ?_, ?_, ?_, ?_, ?_⟩
          · intro k hk j hj
            simp only
            rw [f1 k hk j hj, sum_range_succ]
            have e1 : ∑ t ∈ range st.r, l' (idx k) t * (if t = st.r ∧ st.r + 1 ≤ j ∧ j < cols then st.m (idx st.r) j / st.m (idx st.r) st.r
                else set2 st.u st.r st.r 1 t j) = ∑ t ∈ range st.r, st.l (idx k) t * st.u t j := by
              refine sum_congr rfl fun t ht => ?_
              rw [mem_range] at ht
              rw [U1 t ht, L1 k hk t (by omega)]
            rw [e1, add_assoc]
            congr 1
            rcases lt_trichotomy k st.r with hkr | hkr | hkr
            · rw [L3 k hkr, if_pos (show k < st.r ∨ j < st.r by omega), if_pos (show k < st.r + 1 ∨ j < st.r + 1 by omega)]; ring
            · rw [L2 k hk (by omega)]
              by_cases hjr : j < st.r
              · rw [U3 j hjr, if_pos (show k < st.r ∨ j < st.r by omega), if_pos (show k < st.r + 1 ∨ j < st.r + 1 by omega)]; ring
              · rw [U2 j hj (by omega), if_neg (show ¬ (k < st.r ∨ j < st.r) by omega), if_pos (show k < st.r + 1 ∨ j < st.r + 1 by omega), hkr]; field_simp; ring
            · rw [L2 k hk (by omega)]
              by_cases hjr : j < st.r
              · rw [U3 j hjr, if_pos (show k < st.r ∨ j < st.r by omega), if_pos (show k < st.r + 1 ∨ j < st.r + 1 by omega)]; ring
              · rw [U2 j hj (by omega), if_neg (show ¬ (k < st.r ∨ j < st.r) by omega)]
                by_cases hjr' : j = st.r
                · rw [if_pos (show k < st.r + 1 ∨ j < st.r + 1 by omega), hjr', div_self hpiv]; ring
                · rw [if_neg (show ¬ (k < st.r + 1 ∨ j < st.r + 1) by omega), hm k hk j, if_pos (show (st.r + 1 ≤ j ∧ j < cols) ∧ st.r + 1 ≤ k by omega),
                    L2 k hk (by omega)]
                  beta_reduce
                  rw [U2 j hj (by omega)]
                  ring
          · intro k j hk hkj
            simp only
            by_cases hj : j = st.r
            · subst hj; exact L3 k hkj
            · rw [L1 k hk j hj]; exact f2 k j hk hkj
          · intro k j hk hj
            simp only at hj ⊢
            rw [L1 k hk j (by omega)]; exact f3 k j hk (by omega)
          · intro k hk
            simp only at hk ⊢
            by_cases hkr : k = st.r
            · subst hkr; rw [L2 st.r hr (le_refl _)]; exact not_le.1 htol
            · rw [L1 k (by omega) k hkr]; exact f4 k (by omega)
          · intro t j hjt
            simp only
            rcases lt_trichotomy t st.r with htr | htr | htr
            · rw [U1 t htr]; exact f5 t j hjt
            · subst htr; exact U3 j hjt
            · rw [if_neg (by omega), set2_ne_row _ _ (by omega)]; exact f5 t j hjt
          · intro k j h1 h2 h3 h4
            simp only at h1 h3 h4; omega
  · rw [if_pos hr] at hs
    injection hs with hs
    subst hs
    have e := h.rr
    refine ⟨h.perm, by have := h.rc; omega, h.rr, h.u0, fun hD => ?_⟩
    obtain ⟨f1, f2, f3, f4, f5, f6⟩ := h.fac hD
    exact ⟨f1, f2, f3, f4, f5, fun k j h1 h2 => by omega⟩

theorem lu_init (tol : K) (rows cols : Nat) (M0 : Nat → Nat → K) :
    LUInv tol rows cols 0 M0 { m := M0, l := fun _ _ => 0, u := fun _ _ => 0, idx := fun i => i, r := 0 } := by
  refine ⟨by simp [PermOn], le_refl _, Nat.zero_le _, fun _ _ _ => rfl, fun _ => ⟨?_, ?_, ?_, ?_, ?_, ?_⟩⟩ <;> simp

/-- No undefined behaviour when the matrix is not wide. -/
theorem zMatDecompLU_ok (tol : K) (rows cols : Nat) (hw : cols ≤ rows) (m : Nat → Nat → K) :
    ∃ st, zMatDecompLU tol rows cols m = .ok st := by
  obtain ⟨st, h, -⟩ := forUpM_ok (lo := 0) (hi := cols) (luStep tol rows cols)
    { m := m, l := fun _ _ => 0, u := fun _ _ => 0, idx := fun i => i, r := 0 } (fun _ _ => True) (Nat.zero_le _) trivial
    (by
      intro c t _ hc _
      unfold luStep
      split
      · exact ⟨_, rfl, trivial⟩
      · simp only
        split
        · exact ⟨_, rfl, trivial⟩
        · rw [if_neg (by omega)]
          exact ⟨_, rfl, trivial⟩)
  exact ⟨st, h⟩

/-- **C16, partial.** `zMatDecompLU` on a matrix of any shape.  Whenever the pivots were found in the leading columns
(`U` has ones on its diagonal down to the returned rank `r`), the product `L U` differs from `M` by at most `tol` in
each entry, and is exactly `M` in the first `r` columns and the first `r` permuted rows; `L` is lower triangular in
permuted row order with diagonal entries above the tolerance; `U` is unit upper triangular.
Missing: inputs in which a non-leading column is pivotal, for which the claim is false
(`zMatDecompLU_rank_deficient_wrong`) or the function writes outside `L` (`zMatDecompLU_wide_ub`). -/
theorem zMatDecompLU_correct_partial (tol : K) (h0 : 0 ≤ tol) (rows cols : Nat) (M : Nat → Nat → K) (st : LUS K)
    (h : zMatDecompLU tol rows cols M = .ok st) (hD : ∀ t, t < st.r → st.u t t = 1) :
    PermOn rows st.idx ∧ st.r ≤ rows ∧ st.r ≤ cols ∧
    (∀ i j, i < rows → j < cols → |M i j - ∑ t ∈ range st.r, st.l i t * st.u t j| ≤ tol) ∧
    (∀ i j, i < rows → j < cols → j < st.r → M i j = ∑ t ∈ range st.r, st.l i t * st.u t j) ∧
    (∀ k j, k < st.r → j < cols → M (st.idx k) j = ∑ t ∈ range st.r, st.l (st.idx k) t * st.u t j) ∧
    (∀ k j, k < rows → (k < j ∨ st.r ≤ j) → st.l (st.idx k) j = 0) ∧ (∀ k, k < st.r → tol < |st.l (st.idx k) k|) ∧
    (∀ t j, (j < t ∨ st.r ≤ t) → st.u t j = 0) := by
  have inv := forUpM_of_ok (lo := 0) (hi := cols) (fun c t => LUInv tol rows cols c M t) (Nat.zero_le _) (lu_init tol rows cols M)
    (fun i t t' _ hi ht e => lu_step h0 hi ht e) h
  obtain ⟨f1, f2, f3, f4, f5, f6⟩ := inv.fac hD
  refine ⟨inv.perm, inv.rr, inv.rc, ?_, ?_, ?_, ?_, f4, ?_⟩
  · intro i j hi hj
    obtain ⟨k, hk, rfl⟩ := inv.perm.surj hi
    rw [f1 k hk j hj, add_sub_cancel_left]
    split
    · rw [abs_zero]; exact h0
    · exact f6 k j (by omega) hk (by omega) hj
  · intro i j hi hj hjr
    obtain ⟨k, hk, rfl⟩ := inv.perm.surj hi
    rw [f1 k hk j hj, if_pos (Or.inr hjr), add_zero]
  · intro k j hk hj
    have := inv.rr
    rw [f1 k (by omega) j hj, if_pos (Or.inl hk), add_zero]
  · rintro k j hk (hj | hj)
    · exact f2 k j hk hj
    · exact f3 k j hk hj
  · rintro t j (hj | hj)
    · exact f5 t j hj
    · exact inv.u0 t j hj

/-- If the remaining part of column `r` vanishes, the matrix is singular. -/
theorem lu_null {n c : Nat} (hc : c < n) {M0 : Nat → Nat → K} {st : LUS K} (h : LUInv 0 n n c M0 st) (hr : st.r = c)
    (hD : LeadingPivots st) (hz : ∀ k, c ≤ k → k < n → st.m (st.idx k) c = 0) : Singular n M0 := by
  obtain ⟨f1, f2, f3, f4, f5, f6⟩ := h.fac hD
  rw [hr] at f1 f3
  let st2 : GS K K := { a := st.u, b := fun t => - st.u t c, idx := fun i => i }
  let y0 := backward c st2 (fun _ => 0)
  let y : Nat → K := fun j => if j < c then y0 j else if j = c then 1 else 0
  have split : ∀ g : Nat → K, ∑ j ∈ range n, g j * y j = ∑ j ∈ range c, g j * y0 j + g c := by
    intro g
    rw [range_eq_Ico, ← sum_Ico_consecutive _ (Nat.zero_le (c+1)) (by omega : c + 1 ≤ n), ← range_eq_Ico, sum_range_succ]
    have : ∑ j ∈ Ico (c+1) n, g j * y j = 0 := by
      refine sum_eq_zero fun j hj => ?_
      rw [mem_Ico] at hj
      simp only [y]
      rw [if_neg (by omega), if_neg (by omega), mul_zero]
    rw [this, add_zero]
    congr 1
    · refine sum_congr rfl fun j hj => ?_
      rw [mem_range] at hj
      simp only [y, hj, if_true]
    · simp [y]
  have hU : ∀ t, t < c → ∑ j ∈ range n, st.u t j * y j = 0 := by
    intro t ht
    rw [split]
    have hb := backward_spec c st2 (fun _ => 0) t ht
    rw [range_eq_Ico, ← sum_Ico_consecutive _ (Nat.zero_le t) ht.le, sum_eq_zero, zero_add,
      sum_eq_sum_Ico_succ_bot ht, hD t (by omega), one_mul]
    · change y0 t + _ + _ = 0
      rw [show y0 t = _ from hb]
      simp only [st2, smul_eq_mul, y0]
      ring
    · intro j hj
      rw [mem_Ico] at hj
      rw [f5 t j hj.2, zero_mul]
  refine ⟨y, ⟨c, hc, by simp [y]⟩, fun i hi => ?_⟩
  obtain ⟨k, hk, rfl⟩ := h.perm.surj hi
  have : ∀ j ∈ range n, M0 (st.idx k) j * y j = ∑ t ∈ range c, st.l (st.idx k) t * (st.u t j * y j) +
      (if k < c ∨ j < c then 0 else st.m (st.idx k) j) * y j := by
    intro j hj
    rw [f1 k hk j (mem_range.1 hj), add_mul, sum_mul]
    simp only [mul_assoc]
  rw [sum_congr rfl this, sum_add_distrib, sum_comm, sum_eq_zero, zero_add]
  · rw [split (fun j => if k < c ∨ j < c then 0 else st.m (st.idx k) j), sum_eq_zero, zero_add]
    · by_cases hkc : k < c
      · rw [if_pos (Or.inl hkc)]
      · rw [if_neg (by omega), hz k (by omega) hk]
    · intro j hj
      rw [mem_range] at hj
      rw [if_pos (Or.inr hj), zero_mul]
  · intro t ht
    rw [← mul_sum, hU t (mem_range.1 ht), mul_zero]

/-- **C16** for non-singular square matrices and a vanishing tolerance: the decomposition succeeds with full rank and
`M = L U`. -/
theorem zMatDecompLU_nonsingular (n : Nat) (M : Nat → Nat → K) (hM : ¬ Singular n M) :
    ∃ st, zMatDecompLU 0 n n M = .ok st ∧ st.r = n ∧ PermOn n st.idx ∧
      (∀ i j, i < n → j < n → M i j = ∑ t ∈ range n, st.l i t * st.u t j) ∧
      (∀ i, i < n → st.l (st.idx i) i ≠ 0) ∧ (∀ i j, i < j → j < n → st.l (st.idx i) j = 0) ∧
      (∀ i, i < n → st.u i i = 1) ∧ (∀ i j, j < i → i < n → st.u i j = 0) := by
  obtain ⟨st, e, inv, hr, hD⟩ := forUpM_ok (lo := 0) (hi := n) (luStep 0 n n)
    { m := M, l := fun _ _ => 0, u := fun _ _ => 0, idx := fun i => i, r := 0 }
    (fun c t => LUInv 0 n n c M t ∧ t.r = c ∧ LeadingPivots t) (Nat.zero_le _)
    ⟨lu_init 0 n n M, rfl, fun t ht => by simp at ht⟩
    (by
      rintro c t - hc ⟨inv, hr, hD⟩
      have hrn : t.r < n := by omega
      obtain ⟨-, -, -, hmax⟩ := zMatPivoting_props n t.m t.idx t.r c hrn inv.perm
      have hpiv : ¬ |t.m (zMatPivoting n t.m t.idx t.r c t.r) c| ≤ 0 := by
        intro hp
        refine hM (lu_null hc (lu_pivot hrn inv) hr hD ?_)
        intro k h1 h2
        exact abs_nonpos_iff.1 ((hmax k (by omega) h2).trans hp)
      obtain ⟨t', ht'⟩ : ∃ t', luStep 0 n n c t = .ok t' ∧ t'.r = t.r + 1 ∧ t'.u = forUp (c+1) n (fun i u => set2 u t.r i
          (t.m (zMatPivoting n t.m t.idx t.r c t.r) i / t.m (zMatPivoting n t.m t.idx t.r c t.r) c)) (set2 t.u t.r c 1) := by
        unfold luStep
        rw [if_neg (by omega)]
        simp only
        rw [if_neg (by simp only [zIsTol, decide_eq_true_eq]; exact hpiv), if_neg (by omega)]
        exact ⟨_, rfl, rfl, rfl⟩
      refine ⟨t', ht'.1, lu_step (le_refl _) hc inv ht'.1, by omega, ?_⟩
      intro s hs
      have hu := forUp_row (lo := c+1) (hi := n) t.r (fun i _ => t.m (zMatPivoting n t.m t.idx t.r c t.r) i / t.m (zMatPivoting n t.m t.idx t.r c t.r) c)
        (set2 t.u t.r c 1) (fun i => t.m (zMatPivoting n t.m t.idx t.r c t.r) i / t.m (zMatPivoting n t.m t.idx t.r c t.r) c)
        (fun _ _ _ _ _ => rfl)
      rw [ht'.2.2, hu]
      beta_reduce
      by_cases hsr : s = t.r
      · subst hsr
        rw [if_neg (by omega), hr, set2_same]
      · rw [if_neg (by omega), set2_ne_row _ _ hsr]
        exact hD s (by omega))
  obtain ⟨p, -, -, -, hM', -, hl, hld, hu⟩ := zMatDecompLU_correct_partial 0 (le_refl _) n n M st e hD
  refine ⟨st, e, hr, p, ?_, ?_, ?_, ?_, ?_⟩
  · intro i j hi hj
    rw [hM' i j hi hj (by omega), hr]
  · intro i hi h0
    have := hld i (by omega)
    rw [h0, abs_zero] at this
    exact lt_irrefl _ this
  · intro i j hij hj
    exact hl i j (by omega) (Or.inl hij)
  · intro i hi
    exact hD i (by omega)
  · intro i j hij hi
    exact hu i j (Or.inl hij)

/-- **C15/C16** decomposing and then solving gives the solution of every non-singular system. -/
theorem zMatDecompLU_zLESolveLU (n : Nat) (A : Nat → Nat → K) (b ans : Nat → K) (hA : ¬ Singular n A) :
    ∃ st, zMatDecompLU 0 n n A = .ok st ∧
      ∀ i, i < n → ∑ j ∈ range n, A i j * zLESolveLU n st.l st.u b ans st.idx j = b i := by
  obtain ⟨st, e, -, p, h1, h2, h3, h4, h5⟩ := zMatDecompLU_nonsingular n A hA
  exact ⟨st, e, zLESolveLU_correct n A st.l st.u b ans st.idx p h1 h2 h3 h4 h5⟩

/-- **C16 is violated** for rank-deficient matrices: for `[[0,1],[0,1]]` the returned rank is 1 and `L U` is
`[[0,1],[0,0]]`. -/
theorem zMatDecompLU_rank_deficient_wrong : ∃ st, zMatDecompLU (0:ℚ) 2 2 (fun _ j => if j = 1 then 1 else 0) = .ok st ∧
    st.r = 1 ∧ st.idx 1 = 1 ∧ ∑ t ∈ range st.r, st.l 1 t * st.u t 1 = 0 ∧ ∑ t ∈ range 2, st.l 1 t * st.u t 1 = 0 := by
  refine ⟨_, rfl, ?_, ?_, ?_, ?_⟩ <;>
    simp [forUp, forN, luStep, zMatPivoting, zIsTol, set2, swap1, sum_range_succ]

/-- **C16 is violated** for wide matrices: the column of `L` written can lie outside the `rows × rows` matrix. -/
theorem zMatDecompLU_wide_ub : zMatDecompLU (0:ℚ) 2 3 (fun _ j => if j = 2 then 1 else 0) = .ub := by
  simp [zMatDecompLU, forUpM, forNM, Res.bind, forUp, forN, luStep, zMatPivoting, zIsTol, swap1]
  rw [if_neg (by norm_num)]

end Zm.LE
