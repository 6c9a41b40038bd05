import Verif.Props.Chol

set_option linter.unusedSectionVars false

/-! # Cholesky decomposition: a full rank means that the matrix is positive definite (C110) -/

namespace Zm.LE
open Zm Finset Misc
variable {K : Type*} [Field K] [LinearOrder K] [IsStrictOrderedRing K]

/-- A positive definite matrix of size `n`. -/
def PosDef (n : Nat) (A : Nat → Nat → K) : Prop := ∀ x : Nat → K, (∃ i, i < n ∧ x i ≠ 0) → 0 < ∑ r ∈ range n, ∑ s ∈ range n, x r * x s * A r s

/-- While every pivot was positive: if the part of the matrix that is left is positive definite, the matrix is. -/
def Back (n : Nat) (A : Nat → Nat → K) (i : Nat) (st : CholS K) : Prop :=
  st.rank ≤ i ∧ (st.rank = i → PermOn n st.idx ∧ SymmOn n st.m ∧
    ((∀ x : Nat → K, (∃ r, r < n ∧ x r ≠ 0) → (∀ s, s < i → x (st.idx s) = 0) → 0 < ∑ r ∈ range n, ∑ s ∈ range n, x r * x s * st.m r s) → PosDef n A))

theorem cholStep_back (sqrt : K → K) (hsq : SqrtOk sqrt) {n : Nat} {A : Nat → Nat → K} {i : Nat} {st st' : CholS K} (h : Back n A i st) (hi : i < n)
    (e : cholStep 0 sqrt n i st = .ok st') : Back n A (i+1) st' := by
  obtain ⟨hle, hb⟩ := h
  unfold cholStep at e
  dsimp only at e
  by_cases h0 : zIsTol (st.m (zMatPivotingDiag n st.m st.idx i i) (zMatPivotingDiag n st.m st.idx i i)) 0 = true
  · rw [if_pos h0] at e
    cases e
    exact ⟨by dsimp only; omega, fun h => by dsimp only at h; omega⟩
  · rw [if_neg h0] at e
    by_cases hn : st.m (zMatPivotingDiag n st.m st.idx i i) (zMatPivotingDiag n st.m st.idx i i) < 0
    · rw [if_pos hn] at e; cases e
    · rw [if_neg hn] at e
      cases e
      refine ⟨by dsimp only; omega, fun hr => ?_⟩
      dsimp only at hr
      obtain ⟨hp, hs, hx⟩ := hb (by omega)
      obtain ⟨p1, p2, -, -⟩ := zMatPivotingDiag_props n st.m st.idx i hi hp
      dsimp only
      generalize zMatPivotingDiag n st.m st.idx i = σ at *
      obtain ⟨m0, idx0, rank0⟩ := st
      dsimp only at *
      have hane : m0 (σ i) (σ i) ≠ 0 := fun h => h0 (by rw [h]; simp [zIsTol])
      have hapos : 0 < m0 (σ i) (σ i) := lt_of_le_of_ne (not_lt.1 hn) (Ne.symm hane)
      obtain ⟨s0, s1⟩ := hsq _ hapos.le
      generalize hS : sqrt (m0 (σ i) (σ i)) = S at s0 s1 ⊢
      have hSne : S ≠ 0 := fun e => hane (by rw [← s1, e, mul_zero])
      have inj : ∀ a b, a < n → b < n → (σ a = σ b ↔ a = b) := fun a b ha hb => ⟨p1.2 a b ha hb, fun e => by rw [e]⟩
      have hset : ∀ j k, j < n → k < n → set2 m0 (σ i) (σ i) S (σ j) (σ k) = if j = i ∧ k = i then S else m0 (σ j) (σ k) := by
        intro j k hj hk
        unfold set2
        exact if_congr (by rw [inj j i hj hi, inj k i hk hi]) rfl rfl
      have hmm : ∀ j k, j < n → k < n → cholSub n i (σ i) σ (cholScale n i (σ i) σ (1 / S) (set2 m0 (σ i) (σ i) S)) (σ j) (σ k) =
          if j = i ∧ k = i then S else if (j = i ∧ i < k) ∨ (k = i ∧ i < j) then m0 (σ j) (σ k) * (1 / S)
          else if i < j ∧ i < k then m0 (σ j) (σ k) - m0 (σ j) (σ i) * (1 / S) * (m0 (σ i) (σ k) * (1 / S)) else m0 (σ j) (σ k) := by
        intro j k hj hk
        rw [cholSub_spec n i σ hi p1 _ j k hj hk, cholScale_spec n i σ hi p1 _ _ j k hj hk, cholScale_spec n i σ hi p1 _ _ j i hj hi, cholScale_spec n i σ hi p1 _ _ i k hi hk,
          hset j k hj hk, hset j i hj hi, hset i k hi hk]
        by_cases e0 : j = i ∧ k = i
        · rw [if_pos e0, if_neg (by omega), if_neg (by omega), if_pos e0]
        · rw [if_neg e0, if_neg e0]
          by_cases e1 : i < j ∧ i < k
          · rw [if_pos e1, if_neg (show ¬ ((j = i ∧ i < k) ∨ (k = i ∧ i < j)) by omega), if_pos (show (j = i ∧ i < i) ∨ (i = i ∧ i < j) by omega),
              if_neg (show ¬ (j = i ∧ i = i) by omega), if_pos (show (i = i ∧ i < k) ∨ (k = i ∧ i < i) by omega), if_neg (show ¬ (i = i ∧ k = i) by omega),
              if_neg (show ¬ ((j = i ∧ i < k) ∨ (k = i ∧ i < j)) by omega), if_pos e1]
          · rw [if_neg e1, if_neg e1]
      generalize cholSub n i (σ i) σ (cholScale n i (σ i) σ (1 / S) (set2 m0 (σ i) (σ i) S)) = m' at hmm ⊢
      have hsσ : ∀ j k, j < n → k < n → m0 (σ j) (σ k) = m0 (σ k) (σ j) := fun j k hj hk => hs _ _ (p1.1 j hj) (p1.1 k hk)
      refine ⟨p1, ?_, ?_⟩
      · intro r s hr hs'
        obtain ⟨j, hj, rfl⟩ := p1.surj hr
        obtain ⟨k, hk, rfl⟩ := p1.surj hs'
        rw [hmm j k hj hk, hmm k j hk hj, hsσ j k hj hk, hsσ j i hj hi, hsσ i k hi hk]
        by_cases e1 : j = i ∧ k = i
        · rw [if_pos e1, if_pos (And.comm.1 e1)]
        · rw [if_neg e1, if_neg (fun e => e1 (And.comm.1 e))]
          by_cases e2 : (j = i ∧ i < k) ∨ (k = i ∧ i < j)
          · rw [if_pos e2, if_pos (Or.comm.1 e2)]
          · rw [if_neg e2, if_neg (fun e => e2 (Or.comm.1 e))]
            by_cases e3 : i < j ∧ i < k
            · rw [if_pos e3, if_pos (And.comm.1 e3)]; ring
            · rw [if_neg e3, if_neg (fun e => e3 (And.comm.1 e))]
      · intro hpd
        refine hx fun x hne hx0 => ?_
        -- the vector without the component of the pivot
        let x' : Nat → K := fun r => if r = σ i then 0 else x r
        have hx' : ∀ j, j < n → x' (σ j) = if j = i then 0 else x (σ j) := fun j hj => if_congr (inj j i hj hi) rfl rfl
        have hx'0 : ∀ s, s < i + 1 → x' (σ s) = 0 := by
          intro s hs'
          rw [hx' s (by omega)]
          by_cases g : s = i
          · rw [if_pos g]
          · rw [if_neg g, p2 s (by omega)]; exact hx0 s (by omega)
        have hsplit : ∀ j, j < n → x (σ j) = x' (σ j) + if j = i then x (σ i) else 0 := by
          intro j hj
          rw [hx' j hj]
          by_cases g : j = i
          · rw [if_pos g, if_pos g, g, zero_add]
          · rw [if_neg g, if_neg g, add_zero]
        rw [quad_perm n σ p1]
        rw [sum_congr rfl fun j hj => sum_congr rfl fun k hk => by rw [hsplit j (mem_range.1 hj), hsplit k (mem_range.1 hk)],
          quad_add n (fun j k => m0 (σ j) (σ k)) hsσ (fun j => x' (σ j)) i hi (x (σ i))]
        have key : ∑ r ∈ range n, ∑ s ∈ range n, x' r * x' s * m' r s =
            ∑ j ∈ range n, ∑ k ∈ range n, x' (σ j) * x' (σ k) * m0 (σ j) (σ k) - (1 / S) ^ 2 * (∑ j ∈ range n, x' (σ j) * m0 (σ j) (σ i)) ^ 2 := by
          rw [quad_perm n σ p1, pow_two (∑ j ∈ range n, x' (σ j) * m0 (σ j) (σ i)), sum_mul_sum, mul_sum, ← sum_sub_distrib]
          refine sum_congr rfl fun j hj => ?_
          rw [mul_sum, ← sum_sub_distrib]
          refine sum_congr rfl fun k hk => ?_
          have hj := mem_range.1 hj
          have hk := mem_range.1 hk
          by_cases e1 : i < j
          · by_cases e2 : i < k
            · rw [hmm j k hj hk, if_neg (by omega), if_neg (by omega), if_pos ⟨e1, e2⟩, hsσ i k hi hk]
              ring
            · rw [hx'0 k (by omega)]; ring
          · rw [hx'0 j (by omega)]; ring
        beta_reduce
        have sq : ∑ j ∈ range n, ∑ k ∈ range n, x' (σ j) * x' (σ k) * m0 (σ j) (σ k) + 2 * x (σ i) * ∑ j ∈ range n, x' (σ j) * m0 (σ j) (σ i) + x (σ i) ^ 2 * m0 (σ i) (σ i) =
            ∑ r ∈ range n, ∑ s ∈ range n, x' r * x' s * m' r s + ((1 / S) * (∑ j ∈ range n, x' (σ j) * m0 (σ j) (σ i)) + x (σ i) * S) ^ 2 := by
          rw [key, ← s1]
          field_simp
          ring
        rw [sq]
        by_cases g : ∃ r, r < n ∧ x' r ≠ 0
        · exact add_pos_of_pos_of_nonneg (hpd x' g hx'0) (sq_nonneg _)
        · push Not at g
          obtain ⟨r, hr, hxr⟩ := hne
          have hxi : x (σ i) ≠ 0 := by
            intro h
            obtain ⟨j, hj, rfl⟩ := p1.surj hr
            apply hxr
            rw [hsplit j hj, g _ hr, zero_add]
            split_ifs
            · exact h
            · rfl
          rw [sum_eq_zero fun r hr => sum_eq_zero fun s _ => by rw [g r (mem_range.1 hr), zero_mul, zero_mul],
            sum_eq_zero (s := range n) (f := fun j => x' (σ j) * m0 (σ j) (σ i)) fun j hj => by rw [g _ (p1.1 j (mem_range.1 hj)), zero_mul], mul_zero, zero_add, zero_add]
          have : x (σ i) * S ≠ 0 := mul_ne_zero hxi hSne
          positivity

/-- C110: a symmetric matrix whose decomposition ends with full rank is positive definite. -/
theorem zMatDecompCholesky_full_rank (sqrt : K → K) (hsq : SqrtOk sqrt) (n : Nat) (A : Nat → Nat → K) (hs : SymmOn n A) (l : Nat → Nat → K) (idx : Nat → Nat) (rank : Nat)
    (h : zMatDecompCholesky 0 sqrt n A = .ok (l, idx, rank)) (hr : n ≤ rank) : PosDef n A := by
  unfold zMatDecompCholesky at h
  cases e : forUpM 0 n (cholStep 0 sqrt n) ⟨A, fun i => i, 0⟩ with
  | fail => rw [e] at h; cases h
  | ub => rw [e] at h; cases h
  | ok st =>
    rw [e] at h
    cases h
    obtain ⟨hle, hb⟩ := forUpM_of_ok (P := fun i st => Back n A i st) (Nat.zero_le n)
      ⟨le_refl _, fun _ => ⟨PermOn.id n, hs, fun h x hx => h x hx (fun s hs => by omega)⟩⟩ (fun i s s' _ hi h e => cholStep_back sqrt hsq h hi e) e
    obtain ⟨p, -, hx⟩ := hb (by omega)
    refine hx fun x ⟨r, hr, hne⟩ h0 => ?_
    obtain ⟨j, hj, rfl⟩ := p.surj hr
    exact absurd (h0 j hj) hne

/-- C110: the rank is full exactly for the positive definite matrices. -/
theorem zMatDecompCholesky_definite_iff (sqrt : K → K) (hsq : SqrtOk sqrt) (n : Nat) (A : Nat → Nat → K) (hs : SymmOn n A) :
    (∃ l idx rank, zMatDecompCholesky 0 sqrt n A = .ok (l, idx, rank) ∧ n ≤ rank) ↔ PosDef n A := by
  constructor
  · rintro ⟨l, idx, rank, e, h⟩
    exact zMatDecompCholesky_full_rank sqrt hsq n A hs l idx rank e h
  · intro hp
    obtain ⟨l, idx, e, -⟩ := zMatDecompCholesky_definite sqrt hsq n A hs hp
    exact ⟨l, idx, n, e, le_refl _⟩

/-- The unit matrix is decomposed with full rank, and the matrix ((1, 2), (2, 1)) is refused. -/
example : (match zMatDecompCholesky (K := ℚ) 0 (fun x => x) 3 (fun i j => if i = j then 1 else 0) with | .ok (_, _, r) => decide (r = 3) | _ => false) = true ∧
    (match zMatDecompCholesky (K := ℚ) 0 (fun x => x) 2 (fun i j => if i = j then 1 else 2) with | .fail => true | _ => false) = true := by decide +kernel

end Zm.LE
