import Verif.Props.MP
import Verif.Props.SVD
import Verif.Model.LEMore

/-! # C118: the generalised solution by singular values -/

set_option linter.unusedSectionVars false

namespace Zm.LE
open Zm Misc Finset Eig
variable {K : Type*} [Field K] [LinearOrder K] [IsStrictOrderedRing K]

theorem svd_gram (rows r : Nat) (u : Nat → Nat → K) (sv : Nat → K) (hr : r ≤ rows) (hu : OrthCols rows u) (i j : Nat) (hi : i < r) (hj : j < r) :
    ∑ k ∈ range rows, (1 : K) * (u k i * sv i) * (u k j * sv j) = if i = j then sv i * sv i else 0 := by
  have h := hu i j (by omega) (by omega)
  rw [show ∑ k ∈ range rows, (1 : K) * (u k i * sv i) * (u k j * sv j) = (sv i * sv j) * ∑ k ∈ range rows, u k i * u k j by
    rw [mul_sum]; exact sum_congr rfl fun k _ => by ring, h]
  by_cases g : i = j
  · rw [if_pos g, if_pos g, g, mul_one]
  · rw [if_neg g, if_neg g, mul_zero]

/-- From a decomposition to the generalised solution. -/
theorem mp_of_svd (rows cols r : Nat) (A u v : Nat → Nat → K) (sv : Nat → K) (hr : r ≤ rows) (hu : OrthCols rows u) (hv : Orthonormal r cols v) (hs : ∀ i, i < r → 0 < sv i)
    (hA : ∀ a k, a < rows → k < cols → A a k = ∑ i ∈ range r, u a i * sv i * v i k) (b x : Nat → K)
    (hx : ∀ j, j < cols → x j = ∑ i ∈ range r, v i j * ((∑ k ∈ range rows, u k i * b k) / sv i)) :
    IsMP rows cols A b none none (fun _ => 0) x := by
  obtain ⟨c, hc⟩ : ∃ c : Nat → K, ∀ i, c i = (∑ k ∈ range rows, u k i * b k) / sv i := ⟨_, fun _ => rfl⟩
  simp only [← hc] at hx
  have hvx : ∀ i, i < r → Ax cols v x i = c i := by
    intro i hi
    unfold Ax
    rw [show ∑ j ∈ range cols, v i j * x j = ∑ p ∈ range r, c p * dot cols (v i) (v p) by
      rw [sum_congr rfl fun j hj => by rw [hx j (mem_range.1 hj)]]
      simp only [dot, mul_sum]
      rw [sum_comm]
      exact sum_congr rfl fun p _ => sum_congr rfl fun j _ => by ring]
    rw [sum_congr rfl fun p hp => by rw [hv i p hi (mem_range.1 hp)]]
    simp [hi]
  have hw : wt (none : Option (Nat → K)) = fun _ => 1 := by funext k; rfl
  have hN : NormalEq rows r (fun k i => u k i * sv i) b (fun _ => 1) (fun _ => 0) (fun _ => 0) c := by
    intro i hi
    rw [zero_mul, zero_mul, add_zero, add_zero, sum_congr rfl fun j hj => by rw [svd_gram rows r u sv hr hu i j hi (mem_range.1 hj)]]
    simp only [ite_mul, zero_mul, sum_ite_eq, mem_range, hi, if_true]
    have := (hs i hi).ne'
    rw [hc, mul_assoc, mul_div_cancel₀ _ this, mul_sum]
    exact sum_congr rfl fun k _ => by ring
  have hpos : ∀ z : Nat → K, sqErr rows r (fun k i => u k i * sv i) b (fun _ => 1) z = sqErr rows r (fun k i => u k i * sv i) b (fun _ => 1) c + ∑ i ∈ range r, sv i ^ 2 * (z i - c i) ^ 2 := by
    intro z
    have e := cost_expand rows r _ b (fun _ => 1) (fun _ => 0) (fun _ => 0) c hN z
    have e1 : ∀ y : Nat → K, sqDist r (fun _ => 0) (fun _ => 0) y = 0 := fun y => by simp [sqDist]
    rw [e1, e1] at e
    simp only [zero_mul, sum_const_zero, add_zero] at e
    rw [e, ← quadForm rows r (fun k i => u k i * sv i) (fun _ => 1) (fun j => z j - c j)]
    congr 1
    refine sum_congr rfl fun i hi => ?_
    rw [sum_congr rfl fun j hj => by rw [svd_gram rows r u sv hr hu i j (mem_range.1 hi) (mem_range.1 hj)]]
    simp only [ite_mul, zero_mul, sum_ite_eq, hi, if_true]
    ring
  have hpr := sqErr_prod rows cols r A (fun k i => u k i * sv i) v hA b (fun _ => 1)
  have hxe : sqErr rows cols A b (fun _ => 1) x = sqErr rows r (fun k i => u k i * sv i) b (fun _ => 1) c := by
    rw [hpr]; exact sqErr_congr _ _ _ _ _ _ _ hvx
  refine ⟨fun z => ?_, fun z hz hne => ?_⟩
  · rw [hw, hxe, hpr z, hpos (Ax cols v z)]
    have : 0 ≤ ∑ i ∈ range r, sv i ^ 2 * (Ax cols v z i - c i) ^ 2 := sum_nonneg fun i _ => mul_nonneg (sq_nonneg _) (sq_nonneg _)
    linarith
  · rw [hw, hxe, hpr z, hpos (Ax cols v z)] at hz
    have h0 : ∑ i ∈ range r, sv i ^ 2 * (Ax cols v z i - c i) ^ 2 = 0 := by linarith
    have h1 := sum_sq_zero r (fun i => sv i ^ 2) _ (fun i hi => pow_pos (hs i hi) 2) h0
    exact (nearest_of r cols v c c (fun _ => 0) x none (fun _ _ => by rw [hw]; exact one_pos)
      (fun j hj => by rw [hw, sub_zero, one_mul, hx j hj]; exact sum_congr rfl fun i _ => mul_comm _ _) hvx).2 z (fun i hi => sub_eq_zero.1 (h1 i hi)) hne

theorem svdDiv_spec (r : Nat) (sv t : Nat → K) (i : Nat) (hi : i < r) : forUp 0 r (fun i v => set1 v i (v i / sv i)) t i = t i / sv i := by
  have := forUp_inv (lo := 0) (hi := r) (fun i v => set1 v i (v i / sv i)) t (fun k v => (∀ j, j < k → v j = t j / sv j) ∧ ∀ j, k ≤ j → v j = t j) (Nat.zero_le _)
    ⟨fun j hj => by omega, fun j _ => rfl⟩
    (fun k v _ hk h => ⟨fun j hj => by
        by_cases g : j = k
        · rw [g, set1_same, h.2 k (le_refl _)]
        · rw [set1_ne _ _ g]; exact h.1 j (by omega),
      fun j hj => by rw [set1_ne _ _ (by omega)]; exact h.2 j (by omega)⟩)
  exact this.1 i hi

/-- C118, `zLESolveMP_SVD` with any eigensolver that solves the eigenproblem of the product with the transpose: the answer is the generalised solution, also of the zero matrix. -/
theorem zLESolveMP_SVD_eig (sqrt : K → K) (hq : SqrtOk sqrt) (eig : (Nat → Nat → K) → Res ((Nat → K) × (Nat → Nat → K) × Bool)) (rows cols : Nat) (A : Nat → Nat → K)
    (val : Nat → K) (U : Nat → Nat → K) (done : Bool) (he : eig (mulMatSelfT rows cols A) = .ok (val, U, done)) (hE : IsEig rows (mulMatSelfT rows cols A) val U) (b ans : Nat → K) :
    ∃ x, zLESolveMP_SVD sqrt 0 eig rows cols A b ans = .ok x ∧ IsMP rows cols A b none none (fun _ => 0) x := by
  obtain ⟨s, e, h⟩ := zMatSVD_correct_partial sqrt hq 0 (le_refl _) eig rows cols A val U done he hE
  rw [mul_zero] at h
  have hp : ∀ a k, a < rows → k < cols → A a k = ∑ i ∈ range s.rank, s.u a i * s.sv i * s.v i k := by
    intro a k ha hk
    have z := (sum_eq_zero_iff_of_nonneg fun a _ => sum_nonneg fun k _ => sq_nonneg _).1 (le_antisymm h.prod (sum_nonneg fun a _ => sum_nonneg fun k _ => sq_nonneg _)) a (mem_range.2 ha)
    have z2 := (sum_eq_zero_iff_of_nonneg fun k _ => sq_nonneg _).1 z k (mem_range.2 hk)
    exact sub_eq_zero.1 (pow_eq_zero_iff (by norm_num) |>.1 z2)
  unfold zLESolveMP_SVD
  rw [e]
  dsimp only [Res.bind]
  rw [if_neg (by rintro ⟨i, hi, h0⟩; exact (h.sv_pos i hi).ne' h0)]
  refine ⟨_, rfl, mp_of_svd rows cols s.rank A s.u s.v s.sv h.rank_le.1 h.u_orth h.v_orth h.sv_pos hp b _ fun j hj => ?_⟩
  rw [mulTVec_spec, if_pos hj]
  refine sum_congr rfl fun i hi => ?_
  rw [svdDiv_spec s.rank _ _ i (mem_range.1 hi), mulTVec_spec, if_pos (mem_range.1 hi)]

/-- C118 with the eigensolver of the library, when its sweeps end by their test. -/
theorem zLESolveMP_SVD_partial (sqrt : K → K) (hq : SqrtOk sqrt) (limit : Nat) (qe : K → K → K → K × K) (rows cols : Nat) (hr : 2 ≤ rows) (A : Nat → Nat → K)
    (hd : ∃ val U, zMatSymEigJacobi sqrt 0 limit qe rows (mulMatSelfT rows cols A) = .ok (val, U, true)) (b ans : Nat → K) :
    ∃ x, zLESolveMP_SVD sqrt 0 (zMatSymEigJacobi sqrt 0 limit qe rows) rows cols A b ans = .ok x ∧ IsMP rows cols A b none none (fun _ => 0) x := by
  obtain ⟨val, U, e⟩ := hd
  have hs : Symm rows (mulMatSelfT rows cols A) := fun p q _ _ => by
    rw [mulMatSelfT_spec, mulMatSelfT_spec]
    exact sum_congr rfl fun k _ => mul_comm _ _
  exact zLESolveMP_SVD_eig sqrt hq _ rows cols A val U true e (zMatSymEigJacobi_exact sqrt hq limit qe rows hr _ hs val U e) b ans

/-- The system `3 x = 6, 5 y = 5` as a run with rational roots. -/
example : (match zLESolveMP_SVD (K := ℚ) (fun x => if x = 25 then 5 else if x = 9 then 3 else 0) (1 / 10 ^ 6)
      (zMatSymEigJacobi (fun x => if x = 25 then 5 else if x = 9 then 3 else 0) (1 / 10 ^ 12) 10000 (fun _ _ _ => (0, 0)) 2) 2 2
      (fun i j => if i = 0 ∧ j = 0 then 3 else if i = 1 ∧ j = 1 then 5 else 0) (fun i => if i = 0 then 6 else 5) (fun _ => 0) with
    | .ok x => decide (x 0 = 2 ∧ x 1 = 1) | _ => false) = true := by decide +kernel

/-- The hypotheses are met by a singular matrix. -/
example : ∃ x, zLESolveMP_SVD Real.sqrt 0 (fun _ => .ok (fun i => if i = 0 then 4 else 0, fun i j => if i = j then 1 else 0, true)) 2 2 (fun i j => if i = j ∧ i = 0 then 2 else 0) (fun _ => 4) (fun _ => 7) = .ok x ∧
    IsMP 2 2 (fun i j => if i = j ∧ i = 0 then (2 : ℝ) else 0) (fun _ => 4) none none (fun _ => 0) x := by
  refine zLESolveMP_SVD_eig Real.sqrt real_sqrt_ok _ 2 2 _ _ _ _ rfl ⟨?_, ?_⟩ _ _
  · intro p q hp hq
    interval_cases p <;> interval_cases q <;> norm_num [sum_range_succ]
  · intro i j hi hj
    interval_cases i <;> interval_cases j <;> norm_num [sum_range_succ, mulMatSelfT_spec]

/-- C118: a matrix of one row is read out of bounds by the eigensolver. -/
theorem zLESolveMP_SVD_row_violated (sqrt : K → K) (tol svtol : K) (limit : Nat) (qe : K → K → K → K × K) (cols : Nat) (A : Nat → Nat → K) (b ans : Nat → K) :
    zLESolveMP_SVD sqrt svtol (zMatSymEigJacobi sqrt tol limit qe 1) 1 cols A b ans = .ub := rfl

end Zm.LE
