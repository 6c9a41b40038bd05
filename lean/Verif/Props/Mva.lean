import Verif.Model.Mva
import Verif.Props.Stat
import Verif.Props.Chol
import Verif.Props.Hess
import Verif.Props.SVD

/-! # C119, C120: principal components, vectors from a normal distribution -/

set_option linter.unusedSectionVars false

namespace Zm.Mva
open Zm Misc Finset
variable {K : Type*} [Field K] [LinearOrder K] [IsStrictOrderedRing K]

/-! ## Principal components -/

theorem pcaLoop_spec (score : Nat → K) (th : K) (k : Nat) : ∀ n sum, sum = ∑ i ∈ range n, score i → (∀ m, m ≤ n → 1 ≤ m → ∑ i ∈ range m, score i ≤ th) →
    n ≤ pcaLoop score th k n sum ∧ pcaLoop score th k n sum ≤ n + k ∧ (∀ m, 1 ≤ m → m ≤ pcaLoop score th k n sum → ∑ i ∈ range m, score i ≤ th) ∧
    (pcaLoop score th k n sum < n + k → th < ∑ i ∈ range (pcaLoop score th k n sum + 1), score i) := by
  induction k with
  | zero =>
    intro n sum h1 h2
    exact ⟨le_refl _, le_refl _, fun m hm hm2 => h2 m hm2 hm, fun h => absurd h (lt_irrefl _)⟩
  | succ k ih =>
    intro n sum h1 h2
    unfold pcaLoop
    by_cases g : sum + score n > th
    · rw [if_pos g]
      exact ⟨le_refl _, by omega, fun m hm hm2 => h2 m hm2 hm, fun _ => by rw [sum_range_succ, ← h1]; exact g⟩
    · rw [if_neg g]
      have h3 : sum + score n = ∑ i ∈ range (n+1), score i := by rw [sum_range_succ, h1]
      obtain ⟨r1, r2, r3, r4⟩ := ih (n+1) _ h3 (fun m hm hm1 => by
        by_cases e : m = n + 1
        · rw [e, ← h3]; exact not_lt.1 g
        · exact h2 m (by omega) hm1)
      exact ⟨by omega, by omega, r3, fun h => r4 (by omega)⟩

/-- Orthonormal columns of a square matrix are orthonormal rows. -/
theorem orthRows_of (n : Nat) (V : Nat → Nat → K) (h : Eig.OrthCols n V) (p q : Nat) (hp : p < n) (hq : q < n) : ∑ k ∈ range n, V p k * V q k = if p = q then 1 else 0 := by
  rw [Eig.orthCols_iff, mul_eq_one_comm] at h
  have := congrFun (congrFun h ⟨p, hp⟩) ⟨q, hq⟩
  rw [Matrix.mul_apply, Matrix.one_apply] at this
  rw [sum_range]
  refine Eq.trans this ?_
  exact if_congr Fin.ext_iff rfl rfl

/-- The eigenvalues add up to the trace. -/
theorem eig_trace (n : Nat) (C : Nat → Nat → K) (val : Nat → K) (V : Nat → Nat → K) (h : Eig.IsEig n C val V) : ∑ p ∈ range n, val p = ∑ a ∈ range n, C a a := by
  have h1 : ∀ p, p < n → val p = ∑ a ∈ range n, ∑ b ∈ range n, C a b * (V b p * V a p) := by
    intro p hp
    have e : ∑ a ∈ range n, V a p * V a p = 1 := by rw [h.1 p p hp hp, if_pos rfl]
    rw [← mul_one (val p), ← e, mul_sum]
    refine sum_congr rfl fun a ha => ?_
    rw [← mul_assoc, ← h.2 a p (mem_range.1 ha) hp, sum_mul]
    exact sum_congr rfl fun b _ => by ring
  rw [sum_congr rfl fun p hp => h1 p (mem_range.1 hp), sum_comm]
  refine sum_congr rfl fun a ha => ?_
  rw [sum_comm]
  rw [sum_congr rfl fun b hb => by rw [← mul_sum, orthRows_of n V h.1 b a (mem_range.1 hb) (mem_range.1 ha)]]
  simp only [mul_ite, mul_one, mul_zero, sum_ite_eq', ha, if_true]

/-- The number of components whose scores exceed the share `cr` of the total. -/
def Significant (n : Nat) (score : Nat → K) (cr : K) (k : Nat) : Prop :=
  (∀ i j, i ≤ j → j < n → score j ≤ score i) ∧ cr * ∑ i ∈ range n, score i < ∑ i ∈ range k, score i ∧ ∀ m, 1 ≤ m → m < k → ∑ i ∈ range m, score i ≤ cr * ∑ i ∈ range n, score i

/-- C119, `zVecListPCA` with an eigensolver that solves the eigenproblem of the covariance: orthonormal loading vectors, along which the components are uncorrelated and have the scores as
variances, scores that are not negative and add up to the variance; the number returned is the index of the component at which the scores exceed the share `cr` of the total. -/
theorem zVecListPCA_partial (tol : K) (ht : tol < 1) (eig : (Nat → Nat → K) → Res ((Nat → K) × (Nat → Nat → K) × Bool)) (n : Nat) (l : List (Nat → K)) (hl : l ≠ []) (cr : K)
    (val : Nat → K) (U : Nat → Nat → K) (done : Bool)
    (he : eig (Stat.zVecListCov tol n l (Stat.zVecListMean tol n l).1).1 = .ok (val, U, done)) (hE : Eig.IsEig n (Stat.zVecListCov tol n l (Stat.zVecListMean tol n l).1).1 val U) :
    ∃ mean k, zVecListPCA tol eig n l cr = .ok (mean, val, U, k) ∧ (∀ j, j < n → mean j = (l.map fun v => v j).sum / l.length) ∧
      (∀ p q, p < n → q < n → (l.map fun v => (∑ i ∈ range n, U i p * (v i - mean i)) * (∑ i ∈ range n, U i q * (v i - mean i))).sum / l.length = if p = q then val p else 0) ∧
      (∀ p, p < n → 0 ≤ val p) ∧
      ∑ p ∈ range n, val p = (l.map fun v => ∑ i ∈ range n, (v i - mean i) ^ 2).sum / l.length ∧
      k ≤ n ∧ (∀ m, 1 ≤ m → m ≤ k → ∑ i ∈ range m, val i ≤ cr * ∑ i ∈ range n, val i) ∧ (k < n → cr * ∑ i ∈ range n, val i < ∑ i ∈ range (k + 1), val i) := by
  unfold zVecListPCA
  rw [if_neg hl]
  dsimp only
  rw [he]
  dsimp only [Res.bind]
  obtain ⟨-, hm⟩ := Stat.zVecListMean_spec tol ht n l hl
  generalize (Stat.zVecListMean tol n l).1 = mean at he hE hm ⊢
  obtain ⟨-, hc⟩ := Stat.zVecListCov_spec tol ht n l hl mean
  have htr := (Stat.zVecListCov_symm_trace tol ht n l hl mean).2
  rw [Stat.zVecListVar_spec] at htr
  generalize (Stat.zVecListCov tol n l mean).1 = C at he hE hc htr
  have hs := forUp_add 0 n val 0 (Nat.zero_le _)
  rw [zero_add, ← range_eq_Ico] at hs
  rw [hs]
  obtain ⟨r1, r2, r3, r4⟩ := pcaLoop_spec val (cr * ∑ i ∈ range n, val i) n 0 0 (by simp) (fun m h1 h2 => by omega)
  rw [zero_add] at r2 r4
  have hcorr : ∀ p q, p < n → q < n → (l.map fun v => (∑ i ∈ range n, U i p * (v i - mean i)) * (∑ i ∈ range n, U i q * (v i - mean i))).sum / l.length = if p = q then val p else 0 := by
    intro p q hp hq
    have e1 : ∀ (l : List (Nat → K)), (l.map fun v => (∑ i ∈ range n, U i p * (v i - mean i)) * (∑ i ∈ range n, U i q * (v i - mean i))).sum =
        ∑ a ∈ range n, ∑ b ∈ range n, U a p * U b q * (l.map fun v => (v a - mean a) * (v b - mean b)).sum := by
      intro l
      induction l with
      | nil => simp
      | cons v l ih =>
        simp only [List.map_cons, List.sum_cons, mul_add, sum_add_distrib]
        rw [ih, sum_mul_sum]
        congr 1
        exact sum_congr rfl fun a _ => sum_congr rfl fun b _ => by ring
    rw [e1, sum_div]
    have e2 : ∀ a, a ∈ range n → (∑ b ∈ range n, U a p * U b q * (l.map fun v => (v a - mean a) * (v b - mean b)).sum) / l.length = U a p * (val q * U a q) := by
      intro a ha
      rw [← hE.2 a q (mem_range.1 ha) hq, sum_div, mul_sum]
      refine sum_congr rfl fun b hb => ?_
      rw [hc a b (mem_range.1 ha) (mem_range.1 hb)]
      ring
    rw [sum_congr rfl e2, show ∑ a ∈ range n, U a p * (val q * U a q) = val q * ∑ a ∈ range n, U a p * U a q by rw [mul_sum]; exact sum_congr rfl fun a _ => by ring, hE.1 p q hp hq]
    by_cases g : p = q
    · rw [if_pos g, if_pos g, mul_one, g]
    · rw [if_neg g, if_neg g, mul_zero]
  refine ⟨mean, _, rfl, hm, hcorr, ?_, ?_, r2, r3, r4⟩
  · intro p hp
    have := hcorr p p hp hp
    rw [if_pos rfl] at this
    rw [← this]
    refine div_nonneg (List.sum_nonneg ?_) (Nat.cast_nonneg _)
    intro x hx
    obtain ⟨v, _, rfl⟩ := List.mem_map.1 hx
    exact mul_self_nonneg _
  · rw [eig_trace n C val U hE, htr]

/-- C119 with the eigensolver of the library, when its sweeps end by their test. -/
theorem zVecListPCA_jacobi_partial (sqrt : K → K) (hq : LE.SqrtOk sqrt) (limit : Nat) (qe : K → K → K → K × K) (n : Nat) (hn : 2 ≤ n) (tol : K) (ht : tol < 1) (l : List (Nat → K)) (hl : l ≠ [])
    (val : Nat → K) (U : Nat → Nat → K) (h : Eig.zMatSymEigJacobi sqrt 0 limit qe n (Stat.zVecListCov tol n l (Stat.zVecListMean tol n l).1).1 = .ok (val, U, true)) :
    Eig.IsEig n (Stat.zVecListCov tol n l (Stat.zVecListMean tol n l).1).1 val U :=
  Eig.zMatSymEigJacobi_exact sqrt hq limit qe n hn _ (fun p q hp hq => (Stat.zVecListCov_symm_trace tol ht n l hl _).1 p q hp hq) val U h

/-- C119 is false: of points on the first axis the first component bears all of the variance, but the number returned is zero; of points on the second axis the component taken first
bears nothing. -/
theorem zVecListPCA_violated :
    (match zVecListPCA (K := ℚ) (1 / 10 ^ 12) (Eig.zMatSymEigJacobi (fun x => x) (1 / 10 ^ 12) 10000 (fun _ _ _ => (0, 0)) 2) 2 [fun i => if i = 0 then 1 else 0, fun i => if i = 0 then -1 else 0] (1/2) with
      | .ok (_, s, _, k) => decide (s 0 = 1 ∧ s 1 = 0 ∧ k = 0) | _ => false) = true ∧
    (match zVecListPCA (K := ℚ) (1 / 10 ^ 12) (Eig.zMatSymEigJacobi (fun x => x) (1 / 10 ^ 12) 10000 (fun _ _ _ => (0, 0)) 2) 2 [fun i => if i = 1 then 1 else 0, fun i => if i = 1 then -1 else 0] (1/2) with
      | .ok (_, s, _, k) => decide (s 0 = 0 ∧ s 1 = 1 ∧ k = 1) | _ => false) = true ∧
    ¬ Significant (K := ℚ) 2 (fun i => if i = 0 then 1 else 0) (1/2) 0 ∧ Significant (K := ℚ) 2 (fun i => if i = 0 then 1 else 0) (1/2) 1 ∧
    ∀ k, ¬ Significant (K := ℚ) 2 (fun i => if i = 1 then 1 else 0) (1/2) k := by
  refine ⟨by decide +kernel, by decide +kernel, ?_, ?_, ?_⟩
  · rintro ⟨-, h, -⟩; norm_num [sum_range_succ] at h
  · refine ⟨fun i j h1 h2 => ?_, by norm_num [sum_range_succ], fun m h1 h2 => by omega⟩
    interval_cases j <;> interval_cases i <;> norm_num
  · rintro k ⟨h, -⟩
    have := h 0 1 (by omega) (by omega)
    norm_num at this

/-- The hypotheses of the theorem are met by three points. -/
example : ∃ mean k, zVecListPCA (K := ℚ) (1 / 10 ^ 12) (fun _ => .ok (fun i => if i = 0 then 2/3 else 0, fun i j => if i = j then 1 else 0, true)) 2
      [fun i => if i = 0 then 1 else 0, fun i => if i = 0 then -1 else 0, fun _ => 0] (1/2) = .ok (mean, fun i => if i = 0 then 2/3 else 0, fun i j => if i = j then 1 else 0, k) := by
  obtain ⟨mean, k, h, -⟩ := zVecListPCA_partial (K := ℚ) (1 / 10 ^ 12) (by norm_num) (fun _ => .ok (fun i => if i = 0 then 2/3 else 0, fun i j => if i = j then 1 else 0, true)) 2
    [fun i => if i = 0 then 1 else 0, fun i => if i = 0 then -1 else 0, fun _ => 0] (by simp) (1/2) _ _ _ rfl
    ⟨fun p q hp hq => by interval_cases p <;> interval_cases q <;> norm_num [sum_range_succ],
     fun a p ha hp => by
      obtain ⟨-, hm⟩ := Stat.zVecListMean_spec (K := ℚ) (1 / 10 ^ 12) (by norm_num) 2 [fun i => if i = 0 then 1 else 0, fun i => if i = 0 then -1 else 0, fun _ => 0] (by simp)
      obtain ⟨-, hc⟩ := Stat.zVecListCov_spec (K := ℚ) (1 / 10 ^ 12) (by norm_num) 2 [fun i => if i = 0 then 1 else 0, fun i => if i = 0 then -1 else 0, fun _ => 0] (by simp)
        (Stat.zVecListMean (1 / 10 ^ 12) 2 [fun i => if i = 0 then 1 else 0, fun i => if i = 0 then -1 else 0, fun _ => 0]).1
      rw [sum_congr rfl fun q hq => by rw [hc a q ha (mem_range.1 hq)]]
      simp only [hm a ha, sum_range_succ, hm 0 (by omega), hm 1 (by omega)]
      interval_cases a <;> interval_cases p <;> norm_num⟩
  exact ⟨mean, k, h⟩

/-! ## Vectors from a normal distribution -/

theorem gen_list {α : Type*} (f : Nat → α) (cnt : Nat) : forUp 0 cnt (fun i l => f i :: l) [] = ((List.range cnt).map f).reverse :=
  forUp_inv (lo := 0) (hi := cnt) (fun i l => f i :: l) [] (fun k l => l = ((List.range k).map f).reverse) (Nat.zero_le _) rfl
    (fun k l _ _ h => by rw [h, List.range_succ, List.map_append, List.reverse_append]; rfl)

theorem genVec_spec (n cols : Nat) (b : Nat → Nat → K) (mean z : Nat → K) (j : Nat) (hj : j < n) : genVec n cols b mean z j = mean j + ∑ k ∈ range cols, b j k * z k := by
  unfold genVec
  rw [LE.addTo_spec, if_pos hj, LE.mulVec_spec, if_pos hj, add_comm]
  rfl

/-- C120, `zVecListGenRandND`: for a covariance matrix other than zero there is one factor `L` with `L L^T = cov` such that the vectors are `mean + L z`, `z` being the standard normal
numbers drawn for the vector; their number is that asked for. -/
theorem zVecListGenRandND_partial (sqrt : K → K) (hsq : LE.SqrtOk sqrt) (n cnt : Nat) (mean : Nat → K) (cov : Nat → Nat → K) (hs : LE.SymmOn n cov) (hp : LE.PosSemidef n cov)
    (h0 : ∃ i j, i < n ∧ j < n ∧ cov i j ≠ 0) (Z : Nat → Nat → K) :
    ∃ (l : List (Nat → K)) (L : Nat → Nat → K) (r : Nat), zVecListGenRandND 0 sqrt n cnt mean cov Z = .ok (some l, cnt) ∧ r ≤ n ∧
      (∀ i j, i < n → j < n → ∑ k ∈ range r, L i k * L j k = cov i j) ∧ l.length = cnt ∧
      ∀ i, i < cnt → ∃ v, l[cnt - 1 - i]? = some v ∧ ∀ j, j < n → v j = mean j + ∑ k ∈ range r, L j k * Z i k := by
  obtain ⟨L, idx, r, e, h⟩ := LE.zMatDecompCholesky_correct sqrt hsq n cov hs hp
  unfold zVecListGenRandND
  rw [e]
  dsimp only
  have hr : r ≠ 0 := by
    intro hr
    obtain ⟨i, j, hi, hj, hne⟩ := h0
    apply hne
    rw [← h.prod i j hi hj, hr, range_zero, sum_empty]
  rw [if_neg hr, gen_list]
  refine ⟨_, L, r, rfl, h.le, h.prod, by simp, fun i hi => ⟨genVec n r L mean (Z i), ?_, fun j hj => genVec_spec n r L mean (Z i) j hj⟩⟩
  rw [List.getElem?_reverse (by simp; omega), List.length_map, List.length_range, List.getElem?_map, List.getElem?_range (by omega), show cnt - 1 - (cnt - 1 - i) = i by omega]
  rfl

/-- C120 is false of the zero covariance, which is one of the normal distributions: nothing is generated and zero is returned. -/
theorem zVecListGenRandND_zero_violated (sqrt : K → K) (hsq : LE.SqrtOk sqrt) (n cnt : Nat) (mean : Nat → K) (Z : Nat → Nat → K) :
    zVecListGenRandND 0 sqrt n cnt mean (fun _ _ => 0) Z = .ok (none, 0) := by
  obtain ⟨L, idx, r, e, h⟩ := LE.zMatDecompCholesky_correct sqrt hsq n (fun _ _ => 0) (fun _ _ _ _ => rfl) (fun x => by simp)
  have hr : r = 0 := by
    by_contra hr
    have hd := h.diag 0 (by omega)
    have hlt : idx 0 < n := (h.perm.1 0 (by have := h.le; omega))
    have := h.prod (idx 0) (idx 0) hlt hlt
    have h2 := (sum_eq_zero_iff_of_nonneg fun k _ => mul_self_nonneg _).1 this 0 (mem_range.2 (by omega))
    exact hd.ne' (mul_self_eq_zero.1 h2)
  unfold zVecListGenRandND
  rw [e]
  dsimp only
  rw [if_pos hr]

/-- C120 is false of a matrix that is not a covariance: instead of a failure, the number asked for is returned with copies of the mean. -/
theorem zVecListGenRandND_indefinite_violated (cnt : Nat) (mean : Nat → ℚ) (Z : Nat → Nat → ℚ) :
    ∃ l, zVecListGenRandND 0 (fun x => x) 1 cnt mean (fun _ _ => -1) Z = .ok (some l, cnt) ∧ l.length = cnt ∧ ∀ v ∈ l, v 0 = mean 0 := by
  have e : LE.zMatDecompCholesky (K := ℚ) 0 (fun x => x) 1 (fun _ _ => -1) = .fail := by
    have h : (match LE.zMatDecompCholesky (K := ℚ) 0 (fun x => x) 1 (fun _ _ => -1) with | .fail => true | _ => false) = true := by decide +kernel
    generalize LE.zMatDecompCholesky (K := ℚ) 0 (fun x => x) 1 (fun _ _ => -1) = r at h ⊢
    match r, h with
    | .fail, _ => rfl
  unfold zVecListGenRandND
  rw [e]
  dsimp only
  rw [gen_list]
  refine ⟨_, rfl, by simp, fun v hv => ?_⟩
  obtain ⟨i, -, rfl⟩ := List.mem_map.1 (List.mem_reverse.1 hv)
  rw [genVec_spec 1 1 _ mean (Z i) 0 (by omega)]
  simp

/-- The hypotheses are met by the matrix ((1, 0), (0, 0)), of rank one. -/
example (Z : Nat → Nat → ℝ) : ∃ l, zVecListGenRandND 0 Real.sqrt 2 5 (fun _ => 7) (fun i j => if i = 0 ∧ j = 0 then 1 else 0) Z = .ok (some l, 5) := by
  obtain ⟨l, -, -, h, -⟩ := zVecListGenRandND_partial Real.sqrt LE.real_sqrt_ok 2 5 (fun _ => 7) (fun i j => if i = 0 ∧ j = 0 then 1 else 0)
    (fun r s _ _ => by simp only [and_comm]) (fun x => by norm_num [sum_range_succ]; exact mul_self_nonneg _) ⟨0, 0, by omega, by omega, by norm_num⟩ Z
  exact ⟨l, h⟩

end Zm.Mva
