import Verif.Props.Hotelling
import Verif.Props.MP
import Verif.Props.Lyap

/-! # C116: Moore–Penrose inverse -/

set_option linter.unusedSectionVars false

namespace Zm.LE
open Zm Misc Finset
variable {K : Type*} [Field K] [LinearOrder K] [IsStrictOrderedRing K]

/-- Specification, from the header: the four equations of the Moore–Penrose inverse. -/
structure IsPinv {r c : Nat} (A : Matrix (Fin r) (Fin c) K) (X : Matrix (Fin c) (Fin r) K) : Prop where
  axa : A * X * A = A
  xax : X * A * X = X
  ax : (A * X).transpose = A * X
  xa : (X * A).transpose = X * A

/-- There is only one. -/
theorem IsPinv.unique {r c : Nat} {A : Matrix (Fin r) (Fin c) K} {X Y : Matrix (Fin c) (Fin r) K} (hX : IsPinv A X) (hY : IsPinv A Y) : X = Y := by
  have h1 : A * X = A * Y := by
    have e : A * X = (A * Y) * (A * X) := by rw [← Matrix.mul_assoc, hY.axa]
    have e2 : A * X = (A * X) * (A * Y) := by
      conv_lhs => rw [← hX.ax, e, Matrix.transpose_mul, hX.ax, hY.ax]
    rw [e2, ← Matrix.mul_assoc, hX.axa]
  have h2 : X * A = Y * A := by
    have e : X * A = (X * A) * (Y * A) := by rw [Matrix.mul_assoc, ← Matrix.mul_assoc A, hY.axa]
    have e2 : X * A = (Y * A) * (X * A) := by
      conv_lhs => rw [← hX.xa, e, Matrix.transpose_mul, hX.xa, hY.xa]
    rw [e2, Matrix.mul_assoc, ← Matrix.mul_assoc A, hX.axa]
  rw [← hX.xax, h2, Matrix.mul_assoc, h1, ← Matrix.mul_assoc, hY.xax]

/-- From a full-rank factorisation `A = L Q` with orthonormal rows of `Q`. -/
theorem pinv_of_factor {r c k : Nat} (A : Matrix (Fin r) (Fin c) K) (L : Matrix (Fin r) (Fin k) K) (Q : Matrix (Fin k) (Fin c) K) (F : Matrix (Fin k) (Fin r) K)
    (hA : A = L * Q) (hQ : Q * Q.transpose = 1) (hF : F * L = 1) (hs : (L * F).transpose = L * F) : IsPinv A (Q.transpose * F) := by
  have e1 : A * (Q.transpose * F) = L * F := by rw [hA, Matrix.mul_assoc, ← Matrix.mul_assoc Q, hQ, Matrix.one_mul]
  have e2 : Q.transpose * F * A = Q.transpose * Q := by rw [hA, Matrix.mul_assoc, ← Matrix.mul_assoc F, hF, Matrix.one_mul]
  refine ⟨?_, ?_, by rw [e1, hs], ?_⟩
  · rw [e1, hA, Matrix.mul_assoc, ← Matrix.mul_assoc F, hF, Matrix.one_mul]
  · rw [e2, Matrix.mul_assoc, ← Matrix.mul_assoc Q, hQ, Matrix.one_mul]
  · rw [e2, Matrix.transpose_mul, Matrix.transpose_transpose]

theorem toR_unfin (r w : Nat) (x : Nat → Fin w → K) : toR r w (unfin w x) = Matrix.of fun (i : Fin r) j => x i j := by
  ext i j
  rw [toR_apply, unfin, dif_pos j.2]
  rfl

theorem gram_regular (rows r : Nat) (l : Nat → Nat → K) (h : ¬ ColsDependent rows r l) : ¬ Singular r (mulTMM rows l l) := by
  rintro ⟨z, hz, h0⟩
  apply h
  refine ⟨z, hz, ?_⟩
  have e : ∑ i ∈ range rows, (Ax r l z i) ^ 2 = ∑ j ∈ range r, z j * ∑ k ∈ range r, mulTMM rows l l j k * z k := by
    simp only [mulTMM, inner_spec, Ax, pow_two, sum_mul_sum, mul_sum, sum_mul]
    rw [sum_comm]
    refine sum_congr rfl fun j _ => ?_
    rw [sum_comm]
    exact sum_congr rfl fun k _ => sum_congr rfl fun i _ => by ring
  rw [show ∑ j ∈ range r, z j * ∑ k ∈ range r, mulTMM rows l l j k * z k = 0 from sum_eq_zero fun j hj => by rw [h0 j (mem_range.1 hj), mul_zero]] at e
  intro i hi
  exact pow_eq_zero_iff two_ne_zero |>.1 ((sum_eq_zero_iff_of_nonneg fun i _ => sq_nonneg _).1 e i (mem_range.2 hi))

theorem square_regular (r : Nat) (l : Nat → Nat → K) (h : ¬ ColsDependent r r l) : ¬ Singular r l := h

theorem pinv_gram {r k : Nat} (L : Matrix (Fin r) (Fin k) K) (F : Matrix (Fin k) (Fin r) K) (N' : Matrix (Fin k) (Fin k) K) (hN : N' * (L.transpose * L) = 1) (h : L.transpose * L * F = L.transpose) :
    F * L = 1 ∧ (L * F).transpose = L * F := by
  constructor
  · have e : L.transpose * L * (F * L) = L.transpose * L := by rw [← Matrix.mul_assoc, h]
    calc F * L = N' * (L.transpose * L) * (F * L) := by rw [hN, Matrix.one_mul]
      _ = 1 := by rw [Matrix.mul_assoc, e, hN]
  · have h' := congrArg Matrix.transpose h
    rw [Matrix.transpose_mul, Matrix.transpose_mul, Matrix.transpose_transpose] at h'
    have e : L * F = F.transpose * (L.transpose * L) * F := by rw [h']
    rw [e, Matrix.transpose_mul, Matrix.transpose_mul, Matrix.transpose_mul, Matrix.transpose_transpose, Matrix.transpose_transpose]
    simp only [Matrix.mul_assoc]

theorem regular_inverse (n : Nat) (A : Nat → Nat → K) (h : ¬ Singular n A) : ∃ B, B * toR n n A = 1 := by
  obtain ⟨x, -, hx⟩ := (zMulInvMatMat_iff n n A (fun i j => if i = j then 1 else 0) (fun _ _ => 0)).1 h
  refine ⟨Matrix.of fun i j => x i j, mul_eq_one_comm.1 ?_⟩
  rw [← toR_one]
  ext i j
  rw [Matrix.mul_apply, toR_apply, ← hx i i.2 j, sum_range]
  rfl

/-- The factor of `zMatMPInv`. -/
theorem mpFactor_spec (rows r : Nat) (l : Nat → Nat → K) (h : ¬ ColsDependent rows r l) :
    ∃ t, mpFactor 0 rows r l = .ok t ∧ toR r rows t * toR rows r l = 1 ∧ (toR rows r l * toR r rows t).transpose = toR rows r l * toR r rows t := by
  unfold mpFactor
  by_cases hr : rows = r
  · subst hr
    rw [if_pos rfl]
    obtain ⟨x, e, hx⟩ := zMatInv_correct_partial rows l h
    rw [e]
    refine ⟨_, rfl, ?_⟩
    have e1 : toR rows rows l * toR rows rows (unfin rows x) = 1 := by
      rw [toR_unfin, ← toR_one]
      ext i j
      rw [Matrix.mul_apply, toR_apply, ← hx i i.2 j, sum_range]
      rfl
    rw [e1]
    exact ⟨mul_eq_one_comm.1 e1, Matrix.transpose_one⟩
  · rw [if_neg hr]
    have hg := gram_regular rows r l h
    obtain ⟨x, e, hx⟩ := (zMulInvMatMat_iff r rows (mulTMM rows l l) (fun i j => l j i) (fun _ _ => 0)).1 hg
    obtain ⟨N', hN⟩ := regular_inverse r _ hg
    rw [toR_mulTMM] at hN
    rw [e]
    refine ⟨_, rfl, pinv_gram _ _ N' hN ?_⟩
    rw [← toR_mulTMM, toR_unfin]
    ext i j
    rw [Matrix.mul_apply, Matrix.transpose_apply, toR_apply, ← hx i i.2 j, sum_range]
    rfl

/-- The factor of `zMulMPInvMatMat`. -/
theorem mpFactorMul_spec (rows r w : Nat) (l m2 : Nat → Nat → K) (h : ¬ ColsDependent rows r l) :
    ∃ t, ∃ F : Matrix (Fin r) (Fin rows) K, mpFactorMul 0 rows r w l m2 = .ok t ∧ toR r w t = F * toR rows w m2 ∧ F * toR rows r l = 1 ∧ (toR rows r l * F).transpose = toR rows r l * F := by
  obtain ⟨t0, e0, h1, h2⟩ := mpFactor_spec rows r l h
  unfold mpFactorMul
  by_cases hr : rows = r
  · subst hr
    rw [if_pos rfl]
    obtain ⟨x, e, hx⟩ := (zMulInvMatMat_iff rows w l m2 (fun _ _ => 0)).1 h
    rw [e]
    refine ⟨_, toR rows rows t0, rfl, ?_, h1, h2⟩
    have e1 : toR rows rows l * toR rows w (unfin w x) = toR rows w m2 := by
      rw [toR_unfin]
      ext i j
      rw [Matrix.mul_apply, toR_apply, ← hx i i.2 j, sum_range]
      rfl
    rw [← e1, ← Matrix.mul_assoc, h1, Matrix.one_mul]
  · rw [if_neg hr]
    have hg := gram_regular rows r l h
    obtain ⟨x, e, hx⟩ := (zMulInvMatMat_iff r w (mulTMM rows l l) (mulTMM rows l m2) (fun _ _ => 0)).1 hg
    obtain ⟨N', hN⟩ := regular_inverse r _ hg
    rw [toR_mulTMM] at hN
    rw [e]
    refine ⟨_, toR r rows t0, rfl, ?_, h1, h2⟩
    have e1 : (toR rows r l).transpose * toR rows r l * toR r w (unfin w x) = (toR rows r l).transpose * toR rows w m2 := by
      rw [← toR_mulTMM, ← toR_mulTMM, toR_unfin]
      ext i j
      rw [Matrix.mul_apply, toR_apply, ← hx i i.2 j, sum_range]
      rfl
    have e2 : (toR rows r l).transpose * toR rows r l * toR r rows t0 = (toR rows r l).transpose := by
      rw [Matrix.mul_assoc, ← h2, Matrix.transpose_mul, ← Matrix.mul_assoc, ← Matrix.transpose_mul, h1, Matrix.transpose_one, Matrix.one_mul]
    have e3 : (toR rows r l).transpose * toR rows r l * toR r w (unfin w x) = (toR rows r l).transpose * toR rows r l * (toR r rows t0 * toR rows w m2) := by
      rw [e1, ← Matrix.mul_assoc, e2]
    have e4 := congrArg (fun M => N' * M) e3
    beta_reduce at e4
    rw [← Matrix.mul_assoc, hN, Matrix.one_mul, ← Matrix.mul_assoc, hN, Matrix.one_mul] at e4
    exact e4

/-- The decomposition that the functions start from. -/
theorem lq_facts (sqrt : K → K) (hsq : SqrtOk sqrt) (rows cols : Nat) (m : Nat → Nat → K) (hm : ∃ i j, i < rows ∧ j < cols ∧ m i j ≠ 0) :
    ∃ st, zMatDecompLQDST 0 sqrt rows cols m (fun _ _ => 0) = st ∧ st.rank ≠ 0 ∧ ¬ ColsDependent rows st.rank st.l ∧
      toR st.rank cols st.q * (toR st.rank cols st.q).transpose = 1 ∧ toR rows cols m = toR rows st.rank st.l * toR st.rank cols st.q ∧ IsLQ 0 rows cols m st.l st.q st.rank := by
  obtain ⟨st, e, h, hp⟩ := zMatDecompLQ_exact sqrt hsq rows cols m (fun _ _ => 0)
  simp only [zMatDecompLQ, Bool.false_eq_true, if_false, Res.ok.injEq] at e
  refine ⟨st, e, ?_, h.indep, ?_, ?_, h⟩
  · obtain ⟨i, j, hi, hj, hne⟩ := hm
    intro h0
    rw [hp i j hi hj, h0, sum_range_zero] at hne
    exact hne rfl
  · rw [← toR_one]
    ext i j
    rw [Matrix.mul_apply, toR_apply]
    have := h.orth i j i.2 j.2
    unfold dot at this
    rw [sum_range] at this
    exact this
  · ext i j
    rw [Matrix.mul_apply, toR_apply, hp i j i.2 j.2, sum_range]
    rfl

/-- C116, `zMatMPInv`: the Moore–Penrose inverse of every matrix but zero, and the rank (the least number of columns of a factor). -/
theorem zMatMPInv_partial (sqrt : K → K) (hsq : SqrtOk sqrt) (rows cols : Nat) (m : Nat → Nat → K) (hm : ∃ i j, i < rows ∧ j < cols ∧ m i j ≠ 0) :
    ∃ mp rank, zMatMPInv 0 0 sqrt rows cols m = .ok (mp, rank) ∧ IsPinv (toR rows cols m) (toR cols rows mp) ∧ rank = (toR rows cols m).rank := by
  obtain ⟨st, e, h0, hi, hq, hp, hlq⟩ := lq_facts sqrt hsq rows cols m hm
  obtain ⟨t, et, h1, h2⟩ := mpFactor_spec rows st.rank st.l hi
  unfold zMatMPInv
  rw [e]
  dsimp only
  rw [if_neg h0, et]
  refine ⟨_, _, rfl, ?_, ?_⟩
  · rw [toR_mulTMM]
    exact pinv_of_factor _ _ _ _ hp hq h1 h2
  · apply le_antisymm
    · have e1 : (1 : Matrix (Fin st.rank) (Fin st.rank) K) = toR st.rank rows t * toR rows cols m * (toR st.rank cols st.q).transpose := by
        rw [hp, ← Matrix.mul_assoc, h1, Matrix.one_mul, hq]
      calc st.rank = (1 : Matrix (Fin st.rank) (Fin st.rank) K).rank := by rw [Matrix.rank_one, Fintype.card_fin]
        _ ≤ (toR st.rank rows t * toR rows cols m).rank := by rw [e1]; exact Matrix.rank_mul_le_left _ _
        _ ≤ _ := Matrix.rank_mul_le_right _ _
    · rw [hp]
      refine (Matrix.rank_mul_le_left _ _).trans ?_
      have := Matrix.rank_le_width (toR rows st.rank st.l)
      exact this

/-- C116 is false of the zero matrix, whose inverse is zero: failure is reported, and nothing is stored. -/
theorem zMatMPInv_zero_violated : zMatMPInv (K := ℚ) 0 0 (fun x => x) 2 2 (fun _ _ => 0) = .fail ∧ IsPinv (K := ℚ) (toR 2 2 fun _ _ => 0) (toR 2 2 fun _ _ => 0) := by
  constructor
  · unfold zMatMPInv
    dsimp only
    rw [if_pos (by decide +kernel)]
  · have : toR (K := ℚ) 2 2 (fun _ _ => 0) = 0 := rfl
    rw [this]
    exact ⟨by simp, by simp, by simp, by simp⟩

/-- C116, `zMatMPInvNull`: the matrix `mn` is the negative of the projector `I - mp m` onto the null space, i.e. `mp m - I`. -/
theorem zMatMPInvNull_partial (sqrt : K → K) (hsq : SqrtOk sqrt) (rows cols : Nat) (m : Nat → Nat → K) (hm : ∃ i j, i < rows ∧ j < cols ∧ m i j ≠ 0) :
    ∃ mp mn rank, zMatMPInvNull 0 0 sqrt rows cols m = .ok (mp, mn, rank) ∧ IsPinv (toR rows cols m) (toR cols rows mp) ∧
      toR cols cols mn = toR cols rows mp * toR rows cols m - 1 ∧ toR rows cols m * toR cols cols mn = 0 := by
  obtain ⟨st, e, h0, hi, hq, hp, hlq⟩ := lq_facts sqrt hsq rows cols m hm
  obtain ⟨t, et, h1, h2⟩ := mpFactor_spec rows st.rank st.l hi
  unfold zMatMPInvNull
  rw [e]
  dsimp only
  rw [if_neg h0, et]
  have hX : IsPinv (toR rows cols m) (toR cols rows (mulTMM st.rank st.q t)) := by
    rw [toR_mulTMM]
    exact pinv_of_factor _ _ _ _ hp hq h1 h2
  have hn : ∀ s : Nat → Nat → K, toR cols cols (forUp 0 cols (fun i mn => set2 mn i i (mn i i - 1)) s) = toR cols cols s - 1 := by
    intro s
    have := forUp_inv (lo := 0) (hi := cols) (fun i mn => set2 mn i i (mn i i - 1)) s (fun k (t : Nat → Nat → K) => ∀ i j, t i j = s i j - if i = j ∧ i < k then 1 else 0)
      (Nat.zero_le _) (fun i j => by simp) (by
        intro k t _ hk h i j
        unfold set2
        beta_reduce
        by_cases g : i = k ∧ j = k
        · obtain ⟨rfl, rfl⟩ := g
          rw [if_pos ⟨rfl, rfl⟩, h, if_neg (by omega), if_pos (by omega)]; ring
        · rw [if_neg g, h]
          congr 1
          exact if_congr (by omega) rfl rfl)
    ext i j
    rw [Matrix.sub_apply, toR_apply, this, toR_apply, Matrix.one_apply]
    congr 1
    exact if_congr (by rw [Fin.ext_iff]; exact ⟨fun h => h.1, fun h => ⟨h, i.2⟩⟩) rfl rfl
  have e3 : toR cols rows (mulTMM st.rank st.q t) * toR rows cols m = (toR st.rank cols st.q).transpose * toR st.rank cols st.q := by
    rw [toR_mulTMM, hp, Matrix.mul_assoc, ← Matrix.mul_assoc (toR st.rank rows t), h1, Matrix.one_mul]
  refine ⟨_, _, _, rfl, hX, ?_, ?_⟩
  · rw [hn, toR_mulTMM cols st.rank cols, e3]
  · rw [hn, toR_mulTMM cols st.rank cols, ← e3, Matrix.mul_sub, Matrix.mul_one, ← Matrix.mul_assoc, hX.axa, sub_self]

/-- C116, `zMulMPInvMatMat`: the product of the Moore–Penrose inverse of `m1` and `m2`. -/
theorem zMulMPInvMatMat_partial (sqrt : K → K) (hsq : SqrtOk sqrt) (rows cols w : Nat) (m1 m2 : Nat → Nat → K) (hm : ∃ i j, i < rows ∧ j < cols ∧ m1 i j ≠ 0) :
    ∃ m X, zMulMPInvMatMat 0 0 sqrt rows cols w m1 m2 = .ok m ∧ IsPinv (toR rows cols m1) X ∧ toR cols w m = X * toR rows w m2 := by
  obtain ⟨st, e, h0, hi, hq, hp, hlq⟩ := lq_facts sqrt hsq rows cols m1 hm
  obtain ⟨t, F, et, h0', h1, h2⟩ := mpFactorMul_spec rows st.rank w st.l m2 hi
  unfold zMulMPInvMatMat
  rw [e]
  dsimp only
  rw [if_neg h0, et]
  refine ⟨_, (toR st.rank cols st.q).transpose * F, rfl, pinv_of_factor _ _ _ _ hp hq h1 h2, ?_⟩
  rw [toR_mulTMM, h0', Matrix.mul_assoc]

/-- A matrix of rank one that is not square, and its inverse. -/
example : ∃ mp rank, zMatMPInv (K := ℝ) 0 0 Real.sqrt 2 3 (fun i j => ((i + 1) * (3 + j) : ℝ)) = .ok (mp, rank) ∧ IsPinv (toR 2 3 fun i j => ((i + 1) * (3 + j) : ℝ)) (toR 3 2 mp) ∧
    rank = (toR 2 3 fun i j => ((i + 1) * (3 + j) : ℝ)).rank :=
  zMatMPInv_partial _ real_sqrt_ok 2 3 _ ⟨0, 0, by norm_num, by norm_num, by norm_num⟩

end Zm.LE
