import Verif.Model.LEMPLU
import Verif.Props.MP
import Verif.Props.Chol

/-! # C215, C216: LU decompositions of any shape with leading pivots, the generalised solver on them; balancing -/

set_option linter.unusedSectionVars false

namespace Zm.LE
open Zm Misc Finset
variable {K : Type*} [Field K] [LinearOrder K] [IsStrictOrderedRing K]

/-! ## Specification -/

/-- The first `d` columns are a basis of the space of the columns. -/
structure LeadingBasis (rows cols d : Nat) (A : Nat → Nat → K) : Prop where
  le_row : d ≤ rows
  le_col : d ≤ cols
  indep : ¬ ColsDependent rows d A
  span : ∀ j, d ≤ j → j < cols → ∃ γ : Nat → K, ∀ i, i < rows → A i j = ∑ s ∈ range d, γ s * A i s

/-- A decomposition of rank `d`: the product of `rows × d` and `d × cols` factors is the matrix, the first is lower triangular (its rows taken in the order `idx`) with a diagonal of
non-zeros, the second upper triangular with ones on the diagonal. -/
structure IsLU (rows cols d : Nat) (A l u : Nat → Nat → K) (idx : Nat → Nat) : Prop where
  perm : PermOn rows idx
  le_row : d ≤ rows
  le_col : d ≤ cols
  prod : ∀ i j, i < rows → j < cols → A i j = ∑ t ∈ range d, l i t * u t j
  lower : ∀ k j, k < rows → k < j → l (idx k) j = 0
  diag : ∀ k, k < d → l (idx k) k ≠ 0
  upper : ∀ t j, j < t → u t j = 0
  unit : ∀ t, t < d → u t t = 1

/-! ## The decomposition -/

/-- If the remaining part of column `c` vanishes, the columns up to `c` are dependent. -/
theorem lu_null' {rows cols c : Nat} (hc : c < cols) {M0 : Nat → Nat → K} {st : LUS K} (h : LUInv 0 rows cols c M0 st) (hr : st.r = c)
    (hD : LeadingPivots st) (hz : ∀ k, c ≤ k → k < rows → st.m (st.idx k) c = 0) : ColsDependent rows (c+1) M0 := by
  obtain ⟨f1, f2, f3, f4, f5, f6⟩ := h.fac hD
  rw [hr] at f1 f3
  let st2 : GS K K := { a := st.u, b := fun t => - st.u t c, idx := fun i => i }
  let y0 := backward c st2 (fun _ => 0)
  let y : Nat → K := fun j => if j < c then y0 j else 1
  have split : ∀ g : Nat → K, ∑ j ∈ range (c+1), g j * y j = ∑ j ∈ range c, g j * y0 j + g c := by
    intro g
    rw [sum_range_succ]
    congr 1
    · refine sum_congr rfl fun j hj => ?_
      rw [mem_range] at hj
      simp only [y, hj, if_true]
    · simp [y]
  have hU : ∀ t, t < c → ∑ j ∈ range (c+1), st.u t j * y j = 0 := by
    intro t ht
    rw [split]
    have hb := backward_spec c st2 (fun _ => 0) t ht
    rw [range_eq_Ico, ← sum_Ico_consecutive _ (Nat.zero_le t) ht.le, sum_eq_zero, zero_add,
      sum_eq_sum_Ico_succ_bot ht, hD t (by omega), one_mul]
    · change y0 t + _ + _ = 0
      rw [show y0 t = _ from hb]
      simp only [st2, smul_eq_mul, y0]
      ring
    · intro j hj
      rw [mem_Ico] at hj
      rw [f5 t j hj.2, zero_mul]
  refine ⟨y, ⟨c, by omega, by simp [y]⟩, fun i hi => ?_⟩
  obtain ⟨k, hk, rfl⟩ := h.perm.surj hi
  have : ∀ j ∈ range (c+1), M0 (st.idx k) j * y j = ∑ t ∈ range c, st.l (st.idx k) t * (st.u t j * y j) +
      (if k < c ∨ j < c then 0 else st.m (st.idx k) j) * y j := by
    intro j hj
    rw [f1 k hk j (by have := mem_range.1 hj; omega), add_mul, sum_mul]
    simp only [mul_assoc]
  unfold Ax
  rw [sum_congr rfl this, sum_add_distrib, sum_comm, sum_eq_zero, zero_add]
  · rw [split (fun j => if k < c ∨ j < c then 0 else st.m (st.idx k) j), sum_eq_zero, zero_add]
    · by_cases hkc : k < c
      · rw [if_pos (Or.inl hkc)]
      · rw [if_neg (by omega), hz k (by omega) hk]
    · intro j hj
      rw [mem_range] at hj
      rw [if_pos (Or.inr hj), zero_mul]
  · intro t ht
    rw [← mul_sum, hU t (mem_range.1 ht), mul_zero]

/-- A lower triangular system with a zero right-hand side has the solution zero only. -/
theorem lower_zero (d : Nat) (a : Nat → Nat → K) (w : Nat → K) (hl : ∀ k j, k < d → k < j → a k j = 0) (hd : ∀ k, k < d → a k k ≠ 0)
    (h : ∀ k, k < d → ∑ t ∈ range d, a k t * w t = 0) : ∀ t, t < d → w t = 0 := by
  intro t
  induction t using Nat.strong_induction_on with
  | _ t ih =>
    intro ht
    have := h t ht
    rw [sum_eq_single t (fun b hb hne => ?_) (fun hn => absurd (mem_range.2 ht) hn)] at this
    · exact (mul_eq_zero.1 this).resolve_left (hd t ht)
    · rcases Nat.lt_or_ge b t with g | g
      · rw [ih b g (by omega), mul_zero]
      · rw [hl t b ht (by omega), zero_mul]

/-- Once the columns are exhausted, nothing is left of the matrix. -/
theorem lu_rest {rows cols d : Nat} {M0 : Nat → Nat → K} (hB : LeadingBasis rows cols d M0) {st : LUS K} (h : LUInv 0 rows cols d M0 st) (hr : st.r = d)
    (hD : LeadingPivots st) : ∀ k j, d ≤ k → k < rows → d ≤ j → j < cols → st.m (st.idx k) j = 0 := by
  obtain ⟨f1, f2, f3, f4, f5, f6⟩ := h.fac hD
  rw [hr] at f1 f3 f4
  intro k j hk hkr hj hjc
  obtain ⟨γ, hγ⟩ := hB.span j hj hjc
  have hrow := hB.le_row
  have hcol := hB.le_col
  have key : ∀ k, k < rows → ∑ t ∈ range d, st.l (st.idx k) t * (st.u t j - ∑ s ∈ range d, γ s * st.u t s) + (if k < d then 0 else st.m (st.idx k) j) = 0 := by
    intro k hk
    have e1 := f1 k hk j hjc
    have e2 := hγ (st.idx k) (h.perm.1 k hk)
    have e3 : ∑ s ∈ range d, γ s * M0 (st.idx k) s = ∑ t ∈ range d, st.l (st.idx k) t * ∑ s ∈ range d, γ s * st.u t s := by
      simp only [mul_sum]
      rw [sum_comm]
      refine sum_congr rfl fun s hs => ?_
      have hs := mem_range.1 hs
      rw [f1 k hk s (by omega), if_pos (Or.inr hs), add_zero, mul_sum]
      exact sum_congr rfl fun _ _ => by ring
    rw [e2, e3] at e1
    have e4 : (if k < d ∨ j < d then 0 else st.m (st.idx k) j) = if k < d then 0 else st.m (st.idx k) j := by
      by_cases g : k < d
      · rw [if_pos (Or.inl g), if_pos g]
      · rw [if_neg (by omega), if_neg g]
    rw [e4] at e1
    simp only [mul_sub, sum_sub_distrib]
    linear_combination -e1
  have hw := lower_zero d (fun k t => st.l (st.idx k) t) (fun t => st.u t j - ∑ s ∈ range d, γ s * st.u t s) (fun k j hk hj => f2 k j (by omega) hj)
    (fun k hk => by
      have := f4 k hk
      exact fun e => by rw [e, abs_zero] at this; exact lt_irrefl _ this)
    (fun k hk => by
      have := key k (by omega)
      rwa [if_pos hk, add_zero] at this)
  have := key k hkr
  rw [if_neg (by omega), sum_eq_zero (fun t ht => by rw [hw t (mem_range.1 ht), mul_zero]), zero_add] at this
  exact this

/-- C215, `zMatDecompLU`: for every matrix, of any shape and rank, whose leading columns are a basis of its columns, a decomposition of that rank.  Missing: the other matrices, for which
it is false (`zMatDecompLU_rank_deficient_wrong`, `zMatDecompLU_wide_ub`). -/
theorem zMatDecompLU_leading_partial (rows cols d : Nat) (A : Nat → Nat → K) (hB : LeadingBasis rows cols d A) :
    ∃ st, zMatDecompLU 0 rows cols A = .ok st ∧ st.r = d ∧ IsLU rows cols d A st.l st.u st.idx := by
  have hrow := hB.le_row
  have hcol := hB.le_col
  obtain ⟨st, e, inv, hD, hr, hz⟩ := forUpM_ok (lo := 0) (hi := cols) (luStep 0 rows cols)
    { m := A, l := fun _ _ => 0, u := fun _ _ => 0, idx := fun i => i, r := 0 }
    (fun c t => LUInv 0 rows cols c A t ∧ LeadingPivots t ∧ t.r = min c d ∧ (d ≤ c → ∀ k j, d ≤ k → k < rows → d ≤ j → j < cols → t.m (t.idx k) j = 0)) (Nat.zero_le _)
    ⟨lu_init 0 rows cols A, fun t ht => by simp at ht, by simp, fun h0 => by
      have hd : d = 0 := by omega
      subst hd
      exact lu_rest hB (lu_init 0 rows cols A) rfl (fun t ht => by simp at ht)⟩
    (by
      rintro c t - hc ⟨inv, hD, hr, hz⟩
      by_cases hcd : c < d
      · have hr' : t.r = c := by omega
        have hrn : t.r < rows := by omega
        obtain ⟨-, -, -, hmax⟩ := zMatPivoting_props rows t.m t.idx t.r c hrn inv.perm
        have hpiv : ¬ |t.m (zMatPivoting rows t.m t.idx t.r c t.r) c| ≤ 0 := by
          intro hp
          obtain ⟨z, ⟨j, hj, hzj⟩, h0⟩ := lu_null' hc (lu_pivot hrn inv) hr' hD (by
            intro k h1 h2
            exact abs_nonpos_iff.1 ((hmax k (by omega) h2).trans hp))
          refine hB.indep ⟨fun j => if j < c + 1 then z j else 0, ⟨j, by omega, by beta_reduce; rw [if_pos hj]; exact hzj⟩, fun i hi => ?_⟩
          have := h0 i hi
          unfold Ax at this ⊢
          beta_reduce
          rw [range_eq_Ico, ← sum_Ico_consecutive _ (Nat.zero_le (c+1)) (by omega : c + 1 ≤ d), ← range_eq_Ico, sum_congr rfl (fun j hj => by rw [if_pos (mem_range.1 hj)]), this, zero_add]
          refine sum_eq_zero fun j hj => ?_
          rw [if_neg (by have := mem_Ico.1 hj; omega), mul_zero]
        obtain ⟨t', ht'⟩ : ∃ t', luStep 0 rows cols c t = .ok t' ∧ t'.r = t.r + 1 ∧ t'.u = forUp (c+1) cols (fun i u => set2 u t.r i
            (t.m (zMatPivoting rows t.m t.idx t.r c t.r) i / t.m (zMatPivoting rows t.m t.idx t.r c t.r) c)) (set2 t.u t.r c 1) := by
          unfold luStep
          rw [if_neg (by omega)]
          simp only
          rw [if_neg (by simp only [zIsTol, decide_eq_true_eq]; exact hpiv), if_neg (by omega)]
          exact ⟨_, rfl, rfl, rfl⟩
        have hlead : LeadingPivots t' := by
          intro s hs
          have hu := forUp_row (lo := c+1) (hi := cols) t.r (fun i _ => t.m (zMatPivoting rows t.m t.idx t.r c t.r) i / t.m (zMatPivoting rows t.m t.idx t.r c t.r) c)
            (set2 t.u t.r c 1) (fun i => t.m (zMatPivoting rows t.m t.idx t.r c t.r) i / t.m (zMatPivoting rows t.m t.idx t.r c t.r) c)
            (fun _ _ _ _ _ => rfl)
          rw [ht'.2.2, hu]
          beta_reduce
          by_cases hsr : s = t.r
          · subst hsr
            rw [if_neg (by omega), hr', set2_same]
          · rw [if_neg (by omega), set2_ne_row _ _ hsr]
            exact hD s (by omega)
        have hinv := lu_step (le_refl _) hc inv ht'.1
        refine ⟨t', ht'.1, hinv, hlead, by omega, fun hle => ?_⟩
        have he : c + 1 = d := by omega
        rw [he] at hinv
        exact lu_rest hB hinv (by omega) hlead
      · have hr' : t.r = d := by omega
        unfold luStep
        by_cases hrn : t.r < rows
        · rw [if_neg (by omega)]
          obtain ⟨-, -, hsame, -⟩ := zMatPivoting_props rows t.m t.idx t.r c hrn inv.perm
          have hz' : ∀ k j, d ≤ k → k < rows → d ≤ j → j < cols → t.m (zMatPivoting rows t.m t.idx t.r c k) j = 0 := by
            intro k j hk hkr hj hjc
            obtain ⟨k', h1, h2, ek⟩ := hsame k (by omega) hkr
            rw [ek]
            exact hz (by omega) k' j (by omega) h2 hj hjc
          have hpz : t.m (zMatPivoting rows t.m t.idx t.r c t.r) c = 0 := hz' t.r c (by omega) hrn (by omega) hc
          simp only
          rw [if_pos (by simp only [zIsTol, decide_eq_true_eq]; rw [hpz, abs_zero])]
          have hst : luStep 0 rows cols c t = .ok { t with idx := zMatPivoting rows t.m t.idx t.r c } := by
            unfold luStep
            rw [if_neg (by omega)]
            simp only
            rw [if_pos (by simp only [zIsTol, decide_eq_true_eq]; rw [hpz, abs_zero])]
          exact ⟨_, rfl, lu_step (le_refl _) hc inv hst, hD, by show t.r = _; omega, fun _ => hz'⟩
        · rw [if_pos hrn]
          have hst : luStep 0 rows cols c t = .ok t := by
            unfold luStep
            rw [if_pos hrn]
          exact ⟨t, rfl, lu_step (le_refl _) hc inv hst, hD, by omega, fun _ => hz (by omega)⟩)
  have hr : st.r = d := by omega
  obtain ⟨p, -, -, hM, -, -, hl, hld, hu⟩ := zMatDecompLU_correct_partial 0 (le_refl _) rows cols A st e hD
  rw [hr] at hM hld
  refine ⟨st, e, hr, p, hrow, hcol, fun i j hi hj => ?_, fun k j hk hj => hl k j hk (Or.inl hj), fun k hk h0 => ?_, fun t j hj => hu t j (Or.inl hj), fun t ht => hD t (by omega)⟩
  · exact sub_eq_zero.1 (abs_nonpos_iff.1 (hM i j hi hj))
  · have := hld k hk
    rw [h0, abs_zero] at this
    exact lt_irrefl _ this
/-- C215, `zMatDecompLUAndResize`: the factors left have as many columns and rows as the rank. -/
theorem zMatDecompLUAndResize_partial (rows cols d : Nat) (A : Nat → Nat → K) (hB : LeadingBasis rows cols d A) :
    ∃ st, zMatDecompLUAndResize 0 rows cols A = .ok (st, d, d) ∧ IsLU rows cols d A st.l st.u st.idx := by
  obtain ⟨st, e, hr, h⟩ := zMatDecompLU_leading_partial rows cols d A hB
  refine ⟨st, ?_, h⟩
  unfold zMatDecompLUAndResize
  rw [e]
  simp only [Res.bind]
  have := h.le_row
  by_cases g : st.r < rows
  · rw [if_pos g, hr]
  · rw [if_neg g, show rows = d by omega]

/-- C215, `zMatDecompLQAndResize`: for every matrix, factors whose sizes are the rank and whose product is the matrix. -/
theorem zMatDecompLQAndResize_spec (sqrt : K → K) (hsq : SqrtOk sqrt) (rows cols : Nat) (A q : Nat → Nat → K) :
    ∃ st d, zMatDecompLQAndResize 0 sqrt rows cols A q = .ok (st, d, d) ∧ IsLQ 0 rows cols A st.l st.q d ∧ ∀ i k, i < rows → k < cols → A i k = ∑ j ∈ range d, st.l i j * st.q j k := by
  obtain ⟨st, e, h, hp⟩ := zMatDecompLQ_exact sqrt hsq rows cols A q
  refine ⟨st, st.rank, ?_, h, hp⟩
  unfold zMatDecompLQAndResize
  rw [e]
  simp only [Res.bind]
  have := h.le_row
  by_cases g : st.rank < rows
  · rw [if_pos g]
  · rw [if_neg g, show rows = st.rank by omega]

/-- C215, `zMatDecompCholeskyAndResize`: for every positive semidefinite matrix, a factor with as many columns as the rank. -/
theorem zMatDecompCholeskyAndResize_spec (sqrt : K → K) (hsq : SqrtOk sqrt) (n : Nat) (A : Nat → Nat → K) (hs : SymmOn n A) (hp : PosSemidef n A) :
    ∃ l idx d, zMatDecompCholeskyAndResize 0 sqrt n A = .ok (l, idx, d, d) ∧ IsChol n A l idx d := by
  obtain ⟨l, idx, rank, e, h⟩ := zMatDecompCholesky_correct sqrt hsq n A hs hp
  refine ⟨l, idx, rank, ?_, h⟩
  unfold zMatDecompCholeskyAndResize
  rw [e]
  simp only [Res.bind]
  have := h.le
  by_cases g : rank < n
  · rw [if_pos g]
  · rw [if_neg g, show n = rank by omega]

/-- The matrix ((4, 2), (2, 1)) of rank one. -/
example : (match zMatDecompCholeskyAndResize (K := ℚ) 0 (fun x => if x = 4 then 2 else 0) 2 (fun i j => if i + j = 0 then 4 else if i + j = 1 then 2 else 1) with
  | .ok (l, _, r, c) => decide (r = 1 ∧ c = 1 ∧ l 0 0 = 2 ∧ l 1 0 = 1) | _ => false) = true := by decide +kernel

/-! ## The generalised solver -/

theorem IsLU.indepL {rows cols d : Nat} {A l u : Nat → Nat → K} {idx : Nat → Nat} (h : IsLU rows cols d A l u idx) : ¬ ColsDependent rows d l := by
  rintro ⟨z, ⟨j, hj, hz⟩, h0⟩
  have := h.le_row
  exact hz (lower_zero d (fun k t => l (idx k) t) z (fun k j hk hj => h.lower k j (by omega) hj) h.diag (fun k hk => h0 _ (h.perm.1 k (by omega))) j hj)

theorem IsLU.indepU {rows cols d : Nat} {A l u : Nat → Nat → K} {idx : Nat → Nat} (h : IsLU rows cols d A l u idx) : ¬ RowsDependent d cols u := by
  rintro ⟨z, ⟨j, hj, hz⟩, h0⟩
  have := h.le_col
  refine hz ?_
  clear hz
  induction j using Nat.strong_induction_on with
  | _ t ih =>
    have e := h0 t (by omega)
    rw [sum_eq_single t (fun b hb hne => ?_) (fun hn => absurd (mem_range.2 hj) hn), h.unit t hj, mul_one] at e
    · exact e
    · rcases Nat.lt_or_ge b t with g | g
      · rw [ih b g (by omega), zero_mul]
      · rw [h.upper b t (by omega), mul_zero]

/-- `_zLESolveMP_L` on the factor of a LU decomposition: the unique least-squares solution. -/
theorem solveMP_LI_spec (rows cols r : Nat) (A l u : Nat → Nat → K) (idx : Nat → Nat) (h : IsLU rows cols r A l u idx) (b : Nat → K) (we : Option (Nat → K)) (hwe : ∀ k, k < rows → 0 < wt we k) :
    PermOn r (solveMP_LI 0 rows r idx l b we).2 ∧
    ∀ u : Nat → K, (∃ j, j < r ∧ u j ≠ (solveMP_LI 0 rows r idx l b we).1 j) → sqErr rows r l b (wt we) (solveMP_LI 0 rows r idx l b we).1 < sqErr rows r l b (wt we) u := by
  have hne : ∀ v u : Nat → K, (∃ j, j < r ∧ u j ≠ v j) → 0 < ∑ k ∈ range rows, wt we k * (Ax r l (fun j => u j - v j) k) ^ 2 := by
    rintro v u ⟨j, hj, hu⟩
    refine lt_of_gap rows (wt we) _ hwe ?_
    by_contra hc
    push Not at hc
    exact h.indepL ⟨fun j => u j - v j, ⟨j, hj, sub_ne_zero.2 hu⟩, hc⟩
  unfold solveMP_LI
  by_cases e : rows = r
  · rw [if_pos e]
    refine ⟨PermOn.id _, fun u hu => ?_⟩
    have hs := zLESolveL_correct r l b (fun _ => 0) idx h.diag (fun i j hij hj => h.lower i j (by omega) hij)
    dsimp only at hu ⊢
    have g := hne _ u hu
    generalize zLESolveL r l b (fun _ => 0) idx = v at hs hu g ⊢
    have h1 : ∀ z : Nat → K, sqErr rows r l b (wt we) z = ∑ k ∈ range rows, wt we k * (Ax r l (fun j => z j - v j) k) ^ 2 := by
      intro z
      unfold sqErr
      refine sum_congr rfl fun k hk => ?_
      obtain ⟨k', hk', rfl⟩ := h.perm.surj (mem_range.1 hk)
      rw [Ax_sub, ← hs k' (by omega)]
      rfl
    rw [h1 u, h1 v]
    refine lt_of_eq_of_lt ?_ g
    simp [Ax]
  · rw [if_neg e]
    rcases zLESolveErrorMinDST_correct rows r (fun i => i) (PermOn.id _) l b we hwe (fun _ => 0) with ⟨x, idx', e1, hp, hx⟩ | ⟨-, hd⟩
    · rw [e1]
      refine ⟨hp, fun u hu => ?_⟩
      have h1 := cost_expand rows r l b (wt we) (fun _ => 0) (fun _ => 0) x hx u
      have h2 : ∀ y : Nat → K, sqDist r (fun _ => 0) (fun _ => 0) y = 0 := fun y => by simp [sqDist]
      rw [h2, h2] at h1
      simp only [zero_mul, sum_const_zero] at h1
      have h3 := hne x u hu
      dsimp only
      linarith
    · exact absurd hd h.indepL

/-- The second half of `zLESolveMP_LU_DST`: the shortest vector which the second factor sends to `v`. -/
theorem solveMP_U_spec (rows cols r : Nat) (A l u : Nat → Nat → K) (idx : Nat → Nat) (h : IsLU rows cols r A l u idx) (v : Nat → K) (idx' : Nat → Nat) (hidx : PermOn r idx')
    (wn : Option (Nat → K)) (hwn : ∀ k, k < cols → 0 < wt wn k) (ans : Nat → K) : Nearest r cols u v wn (fun _ => 0) (solveMP_U 0 cols r u v idx' wn ans) := by
  unfold solveMP_U
  by_cases e : r = cols
  · rw [if_pos e]
    subst e
    have hs := zLESolveU_correct_partial r u v ans h.unit (fun i j hij _ => h.upper i j hij)
    refine ⟨hs, fun z hz hne => ?_⟩
    exfalso
    obtain ⟨j, hj, hn⟩ := hne
    -- the difference is sent to zero by a triangular matrix
    have key : ∀ k, ∀ t, r ≤ t + k → t < r → z t - zLESolveU r u v ans t = 0 := by
      intro k
      induction k with
      | zero => intro t h1 h2; omega
      | succ k ih =>
        intro t h1 h2
        have e := Ax_sub r u z (zLESolveU r u v ans) t
        rw [hz t h2, show Ax r u (zLESolveU r u v ans) t = v t from hs t h2, sub_self] at e
        unfold Ax at e
        rw [sum_eq_single t (fun b hb hne => ?_) (fun hn => absurd (mem_range.2 h2) hn), h.unit t h2, one_mul] at e
        · exact e
        · have hb := mem_range.1 hb
          rcases Nat.lt_or_ge b t with g | g
          · rw [h.upper t b g, zero_mul]
          · beta_reduce
            rw [ih b (by omega) hb, mul_zero]
    exact hn (sub_eq_zero.1 (key r j (by omega) hj))
  · rw [if_neg e]
    rcases zLESolveNormMinDST_correct r cols idx' hidx u v wn hwn ans with ⟨x, idx'', e1, hx⟩ | ⟨-, hd⟩
    · rw [e1]; exact hx
    · exact absurd hd h.indepU

/-- C215, `zLESolveMP_LU`: for every matrix that is not zero whose leading columns are a basis of its columns, and positive weights, the generalised solution (with the weights `1/wn`), as
`zLESolveMP` gives it. -/
theorem zLESolveMP_LU_spec_partial (rows cols d : Nat) (A : Nat → Nat → K) (hB : LeadingBasis rows cols d A) (hd : 0 < d) (b : Nat → K) (wn we : Option (Nat → K))
    (hwn : ∀ k, k < cols → 0 < wt wn k) (hwe : ∀ k, k < rows → 0 < wt we k) (ans : Nat → K) :
    ∃ x, zLESolveMP_LU 0 rows cols A b wn we ans = .ok x ∧ IsMP rows cols A b wn we (fun _ => 0) x := by
  obtain ⟨st, e, hr, h⟩ := zMatDecompLU_leading_partial rows cols d A hB
  unfold zLESolveMP_LU
  rw [e]
  dsimp only
  rw [hr, if_pos hd]
  refine ⟨_, rfl, ?_⟩
  obtain ⟨hperm, hL⟩ := solveMP_LI_spec rows cols d A st.l st.u st.idx h b we hwe
  generalize solveMP_LI 0 rows d st.idx st.l b we = v at hperm hL ⊢
  obtain ⟨hx1, hx2⟩ := solveMP_U_spec rows cols d A st.l st.u st.idx h v.1 v.2 hperm wn hwn ans
  generalize solveMP_U 0 cols d st.u v.1 v.2 wn ans = x at hx1 hx2 ⊢
  have hp := h.prod
  have hx : sqErr rows cols A b (wt we) x = sqErr rows d st.l b (wt we) v.1 := by
    rw [sqErr_prod rows cols d A st.l st.u hp]
    exact sqErr_congr _ _ _ _ _ _ _ hx1
  refine ⟨fun z => ?_, fun z hz hne => hx2 z (fun i hi => ?_) hne⟩
  · rw [hx, sqErr_prod rows cols d A st.l st.u hp b (wt we) z]
    by_cases g : ∃ j, j < d ∧ Ax cols st.u z j ≠ v.1 j
    · exact (hL _ g).le
    · push Not at g
      exact (sqErr_congr _ _ _ _ _ _ _ g).ge
  · by_contra g
    have := hL (Ax cols st.u z) ⟨i, hi, g⟩
    rw [← sqErr_prod rows cols d A st.l st.u hp b (wt we) z, hz, hx] at this
    exact lt_irrefl _ this

/-- The matrix ((1, 2), (2, 4), (0, 0)) of rank one meets the hypothesis. -/
theorem leadingBasis_example : LeadingBasis (K := ℚ) 3 2 1 (fun i j => if i = 2 then 0 else (i + 1) * (j + 1)) := by
  refine ⟨by norm_num, by norm_num, ?_, fun j h1 h2 => ⟨fun _ => 2, fun i hi => ?_⟩⟩
  · rintro ⟨z, ⟨j, hj, hz⟩, h0⟩
    have := h0 0 (by norm_num)
    have e : j = 0 := by omega
    subst e
    simp [Ax] at this
    exact hz this
  · have : j = 1 := by omega
    subst this
    interval_cases i <;> norm_num

example : ∃ x, zLESolveMP_LU (K := ℚ) 0 3 2 (fun i j => if i = 2 then 0 else (i + 1) * (j + 1)) (fun i => i) none none (fun _ => 0) = .ok x ∧
    IsMP (K := ℚ) 3 2 (fun i j => if i = 2 then 0 else (i + 1) * (j + 1)) (fun i => i) none none (fun _ => 0) x :=
  zLESolveMP_LU_spec_partial 3 2 1 _ leadingBasis_example (by norm_num) _ none none (fun _ _ => by norm_num [wt]) (fun _ _ => by norm_num [wt]) _

/-- C215 is false of matrices whose leading columns are not a basis: for ((0, 1), (0, 1)) and the right-hand side (1, 3) the least error has the value 2 for `y`, and the answer is 1. -/
theorem zLESolveMP_LU_skipped_violated : ∃ x, zLESolveMP_LU (K := ℚ) 0 2 2 (fun _ j => if j = 1 then 1 else 0) (fun i => if i = 0 then 1 else 3) none none (fun _ => 0) = .ok x ∧ x 1 = 1 ∧
    ¬ IsMP 2 2 (fun _ j => if j = 1 then 1 else 0) (fun i => if i = 0 then 1 else 3) none none (fun _ => 0) x := by
  have h : (match zLESolveMP_LU (K := ℚ) 0 2 2 (fun _ j => if j = 1 then 1 else 0) (fun i => if i = 0 then 1 else 3) none none (fun _ => 0) with
    | .ok x => decide (x 1 = 1) | _ => false) = true := by decide +kernel
  match e : zLESolveMP_LU (K := ℚ) 0 2 2 (fun _ j => if j = 1 then 1 else 0) (fun i => if i = 0 then 1 else 3) none none (fun _ => 0), h with
  | .ok x, h =>
    have h1 : x 1 = 1 := of_decide_eq_true h
    refine ⟨x, rfl, h1, fun hm => ?_⟩
    have := hm.least (fun _ => 2)
    norm_num [sqErr, Ax, sum_range_succ, wt, h1] at this

/-- C215 is false of wide matrices with zeros in front: the solver writes outside its workspace. -/
theorem zLESolveMP_LU_wide_violated (b ans : Nat → ℚ) : zLESolveMP_LU (K := ℚ) 0 2 3 (fun _ j => if j = 2 then 1 else 0) b none none ans = .ub := by
  unfold zLESolveMP_LU
  rw [zMatDecompLU_wide_ub]

/-! ## Balancing -/

theorem absMax_mem (size : Nat) (row : Nat → K) (hs : 0 < size) : ∃ j, j < size ∧ |row j| = absMax size row := by
  unfold absMax
  exact forUp_inv (lo := 1) (hi := size) (fun j (x : K) => if |row j| > x then |row j| else x) |row 0|
    (fun k x => ∃ j, j < k ∧ |row j| = x) hs ⟨0, by norm_num, rfl⟩ (by
      rintro k x h1 h2 ⟨j, hj, e⟩
      by_cases h : |row k| > x
      · rw [if_pos h]; exact ⟨k, by omega, rfl⟩
      · rw [if_neg h]; exact ⟨j, by omega, e⟩)

/-- Every row is divided by its largest magnitude, zero rows are kept. -/
theorem rowBalancing_full (rows cols : Nat) (m : Nat → Nat → K) (b : Nat → K) : ∀ i, i < rows →
    (absMax cols (m i) = 0 → (∀ j, j < cols → (rowBalancingDST rows cols m b).1 i j = m i j) ∧ (rowBalancingDST rows cols m b).2 i = b i) ∧
    (absMax cols (m i) ≠ 0 → (∀ j, j < cols → (rowBalancingDST rows cols m b).1 i j = m i j / absMax cols (m i)) ∧ (rowBalancingDST rows cols m b).2 i = b i / absMax cols (m i)) := by
  have := forUp_inv (lo := 0) (hi := rows) (fun i (st : (Nat → Nat → K) × (Nat → K)) =>
    let tmp := absMax cols (st.1 i)
    if tmp = 0 then st
    else (forUp 0 cols (fun j m => set2 m i j (m i j / tmp)) st.1, set1 st.2 i (tmp⁻¹ • st.2 i))) (m, b)
    (fun k t => (∀ i, i < k → (absMax cols (m i) = 0 → (∀ j, j < cols → t.1 i j = m i j) ∧ t.2 i = b i) ∧
      (absMax cols (m i) ≠ 0 → (∀ j, j < cols → t.1 i j = m i j / absMax cols (m i)) ∧ t.2 i = b i / absMax cols (m i))) ∧
      (∀ i, k ≤ i → t.1 i = m i ∧ t.2 i = b i)) (Nat.zero_le _)
    ⟨by intro i hi; omega, fun i _ => ⟨rfl, rfl⟩⟩
    (by
      rintro k ⟨M, B⟩ - hk ⟨h1, h2⟩
      obtain ⟨u1, u2⟩ := h2 k (le_refl _)
      dsimp only at h1 h2 u1 u2 ⊢
      by_cases h0 : absMax cols (M k) = 0
      · rw [if_pos h0]
        refine ⟨fun i hi => ?_, fun i hi => h2 i (by omega)⟩
        by_cases hik : i = k
        · subst hik
          rw [u1] at h0
          exact ⟨fun _ => ⟨fun j _ => congrFun u1 j, u2⟩, fun hn => absurd h0 hn⟩
        · exact h1 i (by omega)
      · rw [if_neg h0]
        have hrow := forUp_row (lo := 0) (hi := cols) k (fun j (t : Nat → Nat → K) => t k j / absMax cols (M k)) M (fun j => M k j / absMax cols (M k)) (by
          intro j t h3 h4 h5
          beta_reduce
          rw [h5 k j (by omega)])
        rw [hrow]
        refine ⟨fun i hi => ?_, fun i hi => ?_⟩
        · by_cases hik : i = k
          · subst hik
            refine ⟨fun hz => absurd (by rw [u1]; exact hz) h0, fun _ => ⟨fun j hj => ?_, ?_⟩⟩
            · dsimp only
              rw [if_pos ⟨rfl, Nat.zero_le _, hj⟩, u1]
            · dsimp only
              rw [set1_same, u1, u2, smul_eq_mul, div_eq_inv_mul]
          · have := h1 i (by omega)
            dsimp only
            rw [set1_ne _ _ hik]
            simp only [hik, false_and, if_false]
            exact this
        · have := h2 i (by omega)
          dsimp only
          rw [set1_ne _ _ (by omega)]
          refine ⟨?_, this.2⟩
          funext j
          rw [if_neg (by omega), this.1])
  exact this.1

/-- Every row is zero, or its largest magnitude is 1. -/
def RowBalanced (rows cols : Nat) (m : Nat → Nat → K) : Prop :=
  ∀ i, i < rows → (∀ j, j < cols → m i j = 0) ∨ ((∀ j, j < cols → |m i j| ≤ 1) ∧ ∃ j, j < cols ∧ |m i j| = 1)

theorem rowBalancing_system (rows cols : Nat) (hc : 0 < cols) (M : Nat → Nat → K) (b : Nat → K) :
    RowBalanced rows cols (rowBalancingDST rows cols M b).1 ∧
    ∀ y : Nat → K, ∀ i, i < rows → (Ax cols (rowBalancingDST rows cols M b).1 y i = (rowBalancingDST rows cols M b).2 i ↔ Ax cols M y i = b i) := by
  have h := rowBalancing_full rows cols M b
  refine ⟨fun i hi => ?_, fun y i hi => ?_⟩
  · obtain ⟨h1, h2⟩ := h i hi
    obtain ⟨a1, a2⟩ := absMax_spec cols (M i) hc
    by_cases g : absMax cols (M i) = 0
    · left
      intro j hj
      rw [(h1 g).1 j hj]
      exact abs_nonpos_iff.1 (by rw [← g]; exact a1 j hj)
    · right
      have hp : 0 < absMax cols (M i) := lt_of_le_of_ne a2 (Ne.symm g)
      refine ⟨fun j hj => ?_, ?_⟩
      · rw [(h2 g).1 j hj, abs_div, abs_of_pos hp, div_le_one hp]
        exact a1 j hj
      · obtain ⟨j, hj, e⟩ := absMax_mem cols (M i) hc
        exact ⟨j, hj, by rw [(h2 g).1 j hj, abs_div, abs_of_pos hp, e, div_self g]⟩
  · obtain ⟨h1, h2⟩ := h i hi
    by_cases g : absMax cols (M i) = 0
    · obtain ⟨e1, e2⟩ := h1 g
      rw [e2]
      unfold Ax
      rw [sum_congr rfl (fun j hj => by rw [e1 j (mem_range.1 hj)])]
    · obtain ⟨e1, e2⟩ := h2 g
      rw [e2]
      unfold Ax
      rw [sum_congr rfl (fun j hj => by rw [e1 j (mem_range.1 hj), div_mul_eq_mul_div]), ← sum_div, div_left_inj' g]

/-- C216, `zMatVecBalancing` without factors for the columns: for a system of any shape, an equivalent one of which every equation is zero or has the largest magnitude 1. -/
theorem zMatVecBalancing_rows (rows cols : Nat) (hc : 0 < cols) (M : Nat → Nat → K) (b s : Nat → K) :
    ∃ m v, zMatVecBalancing ⟨rows, cols, rows, cols, rows, rows, none⟩ M b s = .ok (m, v, s) ∧ RowBalanced rows cols m ∧
      ∀ y : Nat → K, (∀ i, i < rows → Ax cols m y i = v i) ↔ (∀ i, i < rows → Ax cols M y i = b i) := by
  obtain ⟨h1, h2⟩ := rowBalancing_system rows cols hc M b
  refine ⟨_, (rowBalancingDST rows cols M b).2, ?_, h1, fun y => ?_⟩
  · simp [zMatVecBalancing]
  · exact forall_congr' fun i => ⟨fun h hi => (h2 y i hi).1 (h hi), fun h hi => (h2 y i hi).2 (h hi)⟩

/-- C216, `zMatVecBalancing` with factors for the columns, for no more columns than rows: `y` solves the balanced system exactly if the products with the factors solve the one given; the
factor of a column is positive, or zero for a column of zeros. -/
theorem zMatVecBalancing_spec_partial (rows cols : Nat) (hc : 0 < cols) (hle : cols ≤ rows) (M : Nat → Nat → K) (b s : Nat → K) :
    ∃ m v t, zMatVecBalancing ⟨rows, cols, rows, cols, rows, rows, some rows⟩ M b s = .ok (m, v, t) ∧ RowBalanced rows cols m ∧
      (∀ j, j < cols → 0 < t j ∨ (t j = 0 ∧ ∀ i, i < rows → M i j = 0)) ∧
      ∀ y : Nat → K, (∀ i, i < rows → Ax cols m y i = v i) ↔ (∀ i, i < rows → Ax cols M (fun j => t j * y j) i = b i) := by
  have hcb := colBalancing_spec rows cols (by omega) M s
  obtain ⟨h1, h2⟩ := rowBalancing_system rows cols hc (zMatColBalancingDST rows cols M s).1 b
  refine ⟨_, (rowBalancingDST rows cols (zMatColBalancingDST rows cols M s).1 b).2, (zMatColBalancingDST rows cols M s).2, ?_, h1, fun j hj => ?_, fun y => ?_⟩
  · simp only [zMatVecBalancing]
    rw [if_neg (by simp), if_neg (by simp), if_neg (by simp), if_neg (by simp), if_neg (by omega), if_neg (by omega)]
  · rcases hcb j hj with ⟨h, h'⟩ | ⟨h, -⟩
    · exact Or.inr ⟨h, fun i hi => (h' i hi).1⟩
    · exact Or.inl h
  · refine forall_congr' fun i => ?_
    have e : ∀ hi : i < rows, Ax cols (zMatColBalancingDST rows cols M s).1 y i = Ax cols M (fun j => (zMatColBalancingDST rows cols M s).2 j * y j) i := by
      intro hi
      unfold Ax
      refine sum_congr rfl fun j hj => ?_
      rcases hcb j (mem_range.1 hj) with ⟨-, h⟩ | ⟨-, h⟩
      · rw [(h i hi).2, (h i hi).1, zero_mul, zero_mul]
      · rw [(h i hi).1]; ring
    exact ⟨fun h hi => by rw [← e hi]; exact (h2 y i hi).1 (h hi), fun h hi => (h2 y i hi).2 (by rw [e hi]; exact h hi)⟩

/-- Two equations of different size: (2, 8 | 10), (1, 0 | 1). -/
example : (match zMatVecBalancing (K := ℚ) ⟨2, 2, 2, 2, 2, 2, some 2⟩ (fun i j => if i = 0 then (if j = 0 then 2 else 8) else if j = 0 then 1 else 0) (fun i => if i = 0 then 10 else 1) (fun _ => 0) with
  | .ok (m, v, t) => decide (m 0 0 = 1 ∧ m 0 1 = 1 ∧ m 1 0 = 1 ∧ m 1 1 = 0 ∧ v 0 = 10 ∧ v 1 = 2 ∧ t 0 = 1 / 2 ∧ t 1 = 1 / 8) | _ => false) = true := by decide +kernel

/-- C216, sizes that do not agree are refused, with or without factors. -/
theorem zMatVecBalancing_sizes (z : BalSizes) (M : Nat → Nat → K) (b s : Nat → K)
    (h : z.rows0 ≠ z.rows ∨ z.cols0 ≠ z.cols ∨ z.vorg ≠ z.v ∨ z.rows ≠ z.v) : zMatVecBalancing z M b s = .fail := by
  obtain ⟨r0, c0, r, c, v0, v, n⟩ := z
  dsimp only at h
  unfold zMatVecBalancing
  dsimp only
  by_cases h1 : r0 = r ∧ c0 = c
  · rw [if_neg (by tauto)]
    by_cases h2 : v0 = v
    · rw [if_neg (by tauto)]
      have h3 : r ≠ v := by tauto
      cases n with
      | none => exact if_pos h3
      | some n =>
        dsimp only
        by_cases h4 : v0 = n
        · rw [if_neg (by tauto)]; exact if_pos h3
        · exact if_pos h4
    · exact if_pos h2
  · exact if_pos h1

/-- C216 is false of wide matrices with factors: a vector with an element for each column is refused, and one with an element for each row, which is accepted, is written outside. -/
theorem zMatVecBalancing_wide_violated (rows cols : Nat) (h : rows < cols) (M : Nat → Nat → K) (b s : Nat → K) :
    zMatVecBalancing ⟨rows, cols, rows, cols, rows, rows, some cols⟩ M b s = .fail ∧ zMatVecBalancing ⟨rows, cols, rows, cols, rows, rows, some rows⟩ M b s = .ub := by
  constructor
  · simp only [zMatVecBalancing]
    rw [if_neg (by simp), if_neg (by simp), if_pos (by omega)]
  · simp only [zMatVecBalancing]
    rw [if_neg (by simp), if_neg (by simp), if_neg (by simp), if_neg (by simp), if_pos h]

/-- C216 is false of tall matrices with a factor for each column: it is refused. -/
theorem zMatVecBalancing_tall_violated (rows cols : Nat) (h : cols < rows) (M : Nat → Nat → K) (b s : Nat → K) :
    zMatVecBalancing ⟨rows, cols, rows, cols, rows, rows, some cols⟩ M b s = .fail := by
  simp only [zMatVecBalancing]
  rw [if_neg (by simp), if_neg (by simp), if_pos (by omega)]

end Zm.LE
