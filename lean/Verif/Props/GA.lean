import Verif.Model.GA
import Mathlib.Algebra.Field.Rat
import Mathlib.Algebra.Order.Ring.Rat
import Mathlib.Algebra.Order.BigOperators.Group.Finset
import Mathlib.Algebra.BigOperators.Field
import Mathlib.Data.List.Perm.Basic
import Mathlib.Logic.Equiv.Basic
import Mathlib.Tactic.Linarith
import Mathlib.Tactic.FieldSimp
import Mathlib.Tactic.Ring
import Mathlib.Tactic.NormNum

/-!
# The genetic algorithm

C69: the sort is a permutation by descending fitness, the genes stay in the box, and the value reported is the objective
of the answer; for every objective and all random numbers.
-/

set_option linter.unusedSectionVars false

namespace Zm.GA
variable {K : Type*} [Field K] [LinearOrder K] [IsStrictOrderedRing K]

/-! ## Quick sort -/

/-- `q` is `p` with the elements from `head` to `tail` rearranged. -/
def Rearr (head tail : Nat) (p q : Nat → Chrom K) : Prop :=
  ∃ σ : Equiv.Perm Nat, (∀ k, q k = p (σ k)) ∧ ∀ k, ¬ (head ≤ k ∧ k ≤ tail) → σ k = k

theorem Rearr.refl (head tail : Nat) (p : Nat → Chrom K) : Rearr head tail p p := ⟨Equiv.refl _, fun _ => rfl, fun _ _ => rfl⟩

theorem Rearr.trans {head tail h2 t2 : Nat} {p q r : Nat → Chrom K} (h : Rearr head tail p q) (h' : Rearr h2 t2 q r) (e1 : head ≤ h2) (e2 : t2 ≤ tail) :
    Rearr head tail p r := by
  obtain ⟨σ, a, b⟩ := h
  obtain ⟨τ, c, d⟩ := h'
  refine ⟨τ.trans σ, fun k => by rw [c, a]; rfl, fun k hk => ?_⟩
  show σ (τ k) = k
  rw [d k (by omega), b k hk]

theorem Rearr.outside {head tail : Nat} {p q : Nat → Chrom K} (h : Rearr head tail p q) {k : Nat} (hk : ¬ (head ≤ k ∧ k ≤ tail)) : q k = p k := by
  obtain ⟨σ, a, b⟩ := h
  rw [a, b k hk]

theorem perm_inside (σ : Equiv.Perm Nat) {head tail : Nat} (hσ : ∀ k, ¬ (head ≤ k ∧ k ≤ tail) → σ k = k) {k : Nat} (hk : head ≤ k ∧ k ≤ tail) :
    head ≤ σ k ∧ σ k ≤ tail := by
  by_contra hne
  have h1 := hσ _ hne
  have h2 := σ.injective h1
  rw [h2] at hne
  exact hne hk

/-- A property of all elements of the range is kept. -/
theorem Rearr.inside {head tail : Nat} {p q : Nat → Chrom K} (h : Rearr head tail p q) (P : Chrom K → Prop) (hP : ∀ k, head ≤ k → k ≤ tail → P (p k))
    {k : Nat} (h1 : head ≤ k) (h2 : k ≤ tail) : P (q k) := by
  obtain ⟨σ, a, b⟩ := h
  rw [a]
  have := perm_inside σ b ⟨h1, h2⟩
  exact hP _ this.1 this.2

theorem swap_rearr (p : Nat → Chrom K) {head tail i j : Nat} (hi : head ≤ i ∧ i ≤ tail) (hj : head ≤ j ∧ j ≤ tail) : Rearr head tail p (swap1 p i j) := by
  refine ⟨Equiv.swap i j, fun k => ?_, fun k hk => ?_⟩
  · unfold swap1
    by_cases h1 : k = i
    · subst h1; rw [if_pos rfl, Equiv.swap_apply_left]
    · rw [if_neg h1]
      by_cases h2 : k = j
      · subst h2; rw [if_pos rfl, Equiv.swap_apply_right]
      · rw [if_neg h2, Equiv.swap_apply_of_ne_of_ne h1 h2]
  · exact Equiv.swap_apply_of_ne_of_ne (by rintro rfl; exact hk hi) (by rintro rfl; exact hk hj)

theorem scanUp_spec (p : Nat → Chrom K) (num : Nat) (v : K) (m : Nat) (hm : m < num) (hs : (p m).fit ≤ v) (k : Nat) (hk : k ≤ num) (hkm : num - k ≤ m) :
    ∃ i', scanUp p num v k = .ok i' ∧ num - k ≤ i' ∧ i' ≤ m ∧ (∀ l, num - k ≤ l → l < i' → v < (p l).fit) ∧ (p i').fit ≤ v := by
  induction k with
  | zero => omega
  | succ k ih =>
    unfold scanUp
    by_cases h : (p (num - (k+1))).fit > v
    · rw [if_pos h]
      have hne : num - (k+1) ≠ m := by intro he; rw [he] at h; exact absurd hs (not_le.2 h)
      obtain ⟨i', e, h1, h2, h3, h4⟩ := ih (by omega) (by omega)
      refine ⟨i', e, by omega, h2, fun l hl hl' => ?_, h4⟩
      by_cases hle : num - k ≤ l
      · exact h3 l hle hl'
      · rw [show l = num - (k+1) by omega]; exact h
    · rw [if_neg h]
      exact ⟨_, rfl, le_rfl, hkm, fun l hl hl' => by omega, not_lt.1 h⟩

theorem scanDown_spec (p : Nat → Chrom K) (v : K) (m : Nat) (hs : v ≤ (p m).fit) (j : Nat) (hm : m < j) :
    ∃ j', scanDown p v j = .ok j' ∧ m < j' ∧ j' ≤ j ∧ (∀ l, j' ≤ l → l < j → (p l).fit < v) ∧ v ≤ (p (j' - 1)).fit := by
  induction j with
  | zero => omega
  | succ j ih =>
    unfold scanDown
    by_cases h : (p j).fit < v
    · rw [if_pos h]
      have hne : j ≠ m := by intro he; rw [he] at h; exact absurd hs (not_le.2 h)
      obtain ⟨j', e, h1, h2, h3, h4⟩ := ih (by omega)
      refine ⟨j', e, h1, by omega, fun l hl hl' => ?_, h4⟩
      by_cases hle : l < j
      · exact h3 l hl hle
      · rw [show l = j by omega]; exact h
    · rw [if_neg h]
      exact ⟨_, rfl, hm, le_rfl, fun l hl hl' => by omega, by rw [Nat.add_sub_cancel]; exact not_lt.1 h⟩

/-- The partition never leaves the array, and splits it at the pivot into two smaller parts. -/
theorem part_spec (num : Nat) (v : K) (head tail : Nat) (ht : tail < num) (fuel : Nat) (p : Nat → Chrom K) (i j : Nat) (hf : 0 < fuel) (hfu : j < i + fuel)
    (hi : head ≤ i) (hj : j ≤ tail + 1) (hlo : ∀ k, head ≤ k → k < i → v ≤ (p k).fit) (hhi : ∀ k, j ≤ k → k ≤ tail → (p k).fit ≤ v)
    (s1 : i < j → ∃ m, i ≤ m ∧ m ≤ tail ∧ (p m).fit ≤ v) (s2 : i < j → ∃ m, head ≤ m ∧ m < j ∧ v ≤ (p m).fit)
    (st : (head < i ∧ j ≤ tail) ∨ (i = head ∧ j = tail + 1 ∧ ∃ m, head ≤ m ∧ m ≤ tail ∧ (p m).fit = v)) :
    ∃ q i' j', part num v fuel p i j = .ok (q, i', j') ∧ Rearr head tail p q ∧ j' ≤ i' ∧ head < i' ∧ j' ≤ tail ∧
      (∀ k, head ≤ k → k < i' → v ≤ (q k).fit) ∧ (∀ k, j' ≤ k → k ≤ tail → (q k).fit ≤ v) := by
  induction fuel generalizing p i j with
  | zero => omega
  | succ fuel ih =>
    unfold part
    by_cases hij : i < j
    swap
    · rw [if_neg hij]
      rcases st with st | ⟨st1, st2, m, st3, st4, -⟩
      · exact ⟨p, i, j, rfl, Rearr.refl _ _ _, by omega, st.1, st.2, hlo, hhi⟩
      · omega
    rw [if_pos hij]
    -- the sentinels; in the first turn they are the pivot
    obtain ⟨m1, m2, a1, a2, a3, b1, b2, b3, hmm⟩ : ∃ m1 m2, i ≤ m1 ∧ m1 ≤ tail ∧ (p m1).fit ≤ v ∧ head ≤ m2 ∧ m2 < j ∧ v ≤ (p m2).fit ∧
        ((head < i ∧ j ≤ tail) ∨ m1 = m2) := by
      rcases st with st | ⟨st1, st2, m, st3, st4, st5⟩
      · obtain ⟨m1, a⟩ := s1 hij
        obtain ⟨m2, b⟩ := s2 hij
        exact ⟨m1, m2, a.1, a.2.1, a.2.2, b.1, b.2.1, b.2.2, Or.inl st⟩
      · exact ⟨m, m, by omega, st4, st5.le, st3, by omega, st5.ge, Or.inr rfl⟩
    obtain ⟨i', e1, c1, c2, c3, c4⟩ := scanUp_spec p num v m1 (by omega) a3 (num - i) (by omega) (by omega)
    rw [show num - (num - i) = i by omega] at c1 c3
    obtain ⟨j', e2, d1, d2, d3, d4⟩ := scanDown_spec p v m2 b3 j b2
    rw [e1]
    dsimp only
    rw [e2]
    dsimp only
    by_cases hbr : j' ≤ i'
    · rw [if_pos hbr]
      rcases hmm with hmm | hmm
      · refine ⟨p, i', j', rfl, Rearr.refl _ _ _, hbr, by omega, by omega, ?_, ?_⟩
        · intro k h1 h2
          by_cases hk : k < i
          · exact hlo k h1 hk
          · exact (c3 k (by omega) h2).le
        · intro k h1 h2
          by_cases hk : j ≤ k
          · exact hhi k hk h2
          · exact (d3 k h1 (by omega)).le
      · omega
    · rw [if_neg hbr]
      have hsw := swap_rearr p (head := head) (tail := tail) (i := i') (j := j' - 1) (by omega) (by omega)
      have hl : (swap1 p i' (j' - 1) i').fit = (p (j' - 1)).fit := by unfold swap1; rw [if_pos rfl]
      have hr : (swap1 p i' (j' - 1) (j' - 1)).fit = (p i').fit := by
        unfold swap1
        by_cases he : j' - 1 = i'
        · rw [if_pos he, he]
        · rw [if_neg he, if_pos rfl]
      have hne : ∀ k, k ≠ i' → k ≠ j' - 1 → swap1 p i' (j' - 1) k = p k := by
        intro k h1 h2; unfold swap1; rw [if_neg h1, if_neg h2]
      obtain ⟨q, i2, j2, e, f1, f2, f3, f4, f5, f6⟩ := ih (swap1 p i' (j' - 1)) (i' + 1) (j' - 1) (by omega) (by omega) (by omega) (by omega)
        (by
          intro k h1 h2
          by_cases hk : k = i'
          · rw [hk, hl]; exact d4
          · rw [hne k hk (by omega)]
            by_cases hki : k < i
            · exact hlo k h1 hki
            · exact (c3 k (by omega) (by omega)).le)
        (by
          intro k h1 h2
          by_cases hk : k = j' - 1
          · rw [hk, hr]; exact c4
          · rw [hne k (by omega) hk]
            by_cases hkj : j ≤ k
            · exact hhi k hkj h2
            · exact (d3 k (by omega) (by omega)).le)
        (by intro hlt; exact ⟨j' - 1, by omega, by omega, by rw [hr]; exact c4⟩)
        (by intro hlt; exact ⟨i', by omega, by omega, by rw [hl]; exact d4⟩)
        (Or.inl ⟨by omega, by omega⟩)
      exact ⟨q, i2, j2, e, hsw.trans f1 le_rfl le_rfl, f2, f3, f4, f5, f6⟩

/-- The sort never leaves the array, ends, and sorts by descending fitness. -/
theorem quickSort_spec (num : Nat) (fuel : Nat) (p : Nat → Chrom K) (head tail : Nat) (ht : tail < num) (hle : head ≤ tail) (hf : tail - head < fuel) :
    ∃ q, quickSort num fuel p head tail = .ok q ∧ Rearr head tail p q ∧ ∀ a b, head ≤ a → a ≤ b → b ≤ tail → (q b).fit ≤ (q a).fit := by
  induction fuel generalizing p head tail with
  | zero => omega
  | succ fuel ih =>
    obtain ⟨v, hv⟩ : ∃ v, v = (p ((head + tail) / 2)).fit := ⟨_, rfl⟩
    obtain ⟨q, i, j, e, f1, f2, f3, f4, f5, f6⟩ := part_spec num v head tail ht (tail - head + 2) p head (tail + 1) (by omega) (by omega) le_rfl le_rfl
      (by intro k h1 h2; omega) (by intro k h1 h2; omega)
      (by intro _; exact ⟨(head + tail) / 2, by omega, by omega, hv.ge⟩) (by intro _; exact ⟨(head + tail) / 2, by omega, by omega, hv.le⟩)
      (Or.inr ⟨rfl, rfl, (head + tail) / 2, by omega, by omega, hv.symm⟩)
    unfold quickSort
    rw [← hv, e]
    dsimp only
    obtain ⟨q1, e1, g1, g2⟩ : ∃ q1, (if head + 1 < j then quickSort num fuel q head (j - 1) else .ok q) = .ok q1 ∧
        (Rearr head (j - 1) q q1 ∧ head < j ∨ q1 = q) ∧ ∀ a b, head ≤ a → a ≤ b → b < j → (q1 b).fit ≤ (q1 a).fit := by
      by_cases hh : head + 1 < j
      · obtain ⟨q1, e1, g1, g2⟩ := ih q head (j - 1) (by omega) (by omega) (by omega)
        exact ⟨q1, by rw [if_pos hh, e1], Or.inl ⟨g1, by omega⟩, fun a b h1 h2 h3 => g2 a b h1 h2 (by omega)⟩
      · refine ⟨q, by rw [if_neg hh], Or.inr rfl, fun a b h1 h2 h3 => ?_⟩
        rw [show a = b by omega]
    rw [e1]
    dsimp only
    have t1 : ∀ k, head ≤ k → k < j → v ≤ (q1 k).fit := by
      intro k h1 h2
      rcases g1 with ⟨g1, hj⟩ | g1
      · exact g1.inside (fun c => v ≤ c.fit) (fun k h1 h2 => f5 k h1 (by omega)) h1 (by omega)
      · rw [g1]; exact f5 k h1 (by omega)
    have t2 : ∀ k, j ≤ k → q1 k = q k := by
      intro k h1
      rcases g1 with ⟨g1, hj⟩ | g1
      · exact g1.outside (by omega)
      · rw [g1]
    have r1 : Rearr head tail p q1 := by
      rcases g1 with ⟨g1, hj⟩ | g1
      · exact f1.trans g1 le_rfl (by omega)
      · rw [g1]; exact f1
    by_cases hh : i < tail
    · rw [if_pos hh]
      obtain ⟨q2, e2, k1, k2⟩ := ih q1 i tail ht (by omega) (by omega)
      refine ⟨q2, e2, r1.trans k1 (by omega) le_rfl, ?_⟩
      have o : ∀ k, k < i → q2 k = q1 k := fun k hk => k1.outside (by omega)
      intro a b h1 h2 h3
      by_cases hb : b < j
      · rw [o a (by omega), o b (by omega)]; exact g2 a b h1 h2 hb
      by_cases ha : i ≤ a
      · exact k2 a b ha h2 h3
      have hav : v ≤ (q2 a).fit := by
        rw [o a (by omega)]
        by_cases haj : a < j
        · exact t1 a h1 haj
        · rw [t2 a (by omega)]; exact f5 a h1 (by omega)
      have hbv : (q2 b).fit ≤ v := by
        by_cases hbi : i ≤ b
        · exact k1.inside (fun c => c.fit ≤ v) (fun k h1 h2 => by rw [t2 k (by omega)]; exact f6 k (by omega) h2) hbi h3
        · rw [o b (by omega), t2 b (by omega)]; exact f6 b (by omega) h3
      exact hbv.trans hav
    · rw [if_neg hh]
      refine ⟨q1, rfl, r1, ?_⟩
      intro a b h1 h2 h3
      by_cases hb : b < j
      · exact g2 a b h1 h2 hb
      by_cases hab : a = b
      · rw [hab]
      have hav : v ≤ (q1 a).fit := by
        by_cases haj : a < j
        · exact t1 a h1 haj
        · rw [t2 a (by omega)]; exact f5 a h1 (by omega)
      have hbv : (q1 b).fit ≤ v := by rw [t2 b (by omega)]; exact f6 b (by omega) h3
      exact hbv.trans hav

/-! ## The population -/

/-- The gene is in the box. -/
def InBox (env : Env K) (c : Chrom K) : Prop := ∀ j < env.n, env.lo j ≤ c.gene j ∧ c.gene j ≤ env.hi j

/-- What holds between generations. -/
structure Inv (env : Env K) (ga : GA K) : Prop where
  box : ∀ i < env.num, InBox env (ga.ind i)
  value : ga.eval = env.f (ga.ind 0).gene
  sorted : ∀ a b, a ≤ b → b < env.num → env.f (ga.ind a).gene ≤ env.f (ga.ind b).gene
  fit : ∀ a b, a ≤ b → b < env.num → (ga.ind b).fit ≤ (ga.ind a).fit
  nonneg : ∀ i < env.num, 0 ≤ (ga.ind i).fit
  total : 1 ≤ ∑ i ∈ Finset.range env.num, (ga.ind i).fit

theorem normalise_spec (env : Env K) (htol : 0 ≤ env.tol) (hn : 0 < env.num) (p : Nat → Chrom K)
    (hs : ∀ a b, a ≤ b → b < env.num → (p b).fit ≤ (p a).fit) :
    (∀ i, (normalise env p i).gene = (p i).gene) ∧ (∀ a b, a ≤ b → b < env.num → (normalise env p b).fit ≤ (normalise env p a).fit) ∧
      (∀ i < env.num, 0 ≤ (normalise env p i).fit) ∧ 1 ≤ ∑ i ∈ Finset.range env.num, (normalise env p i).fit := by
  unfold normalise
  dsimp only
  obtain ⟨fmin, hf⟩ : ∃ x, x = (p (env.num - 1)).fit := ⟨_, rfl⟩
  rw [← hf]
  have hloop := forUp_inv (lo := 0) (hi := env.num)
    (fun i (s : (Nat → Chrom K) × K) => (set1 s.1 i { s.1 i with fit := (s.1 i).fit - fmin },
      s.2 + (set1 s.1 i { s.1 i with fit := (s.1 i).fit - fmin } i).fit)) (p, 0)
    (fun k s => (∀ j, s.1 j = if j < k then { p j with fit := (p j).fit - fmin } else p j) ∧ s.2 = ∑ j ∈ Finset.range k, ((p j).fit - fmin)) (Nat.zero_le _)
    ⟨fun j => by rw [if_neg (by omega)], by simp⟩
    (by
      rintro i s - hi ⟨h1, h2⟩
      have hsi : s.1 i = p i := by rw [h1, if_neg (by omega)]
      refine ⟨fun j => ?_, ?_⟩
      · show set1 s.1 i _ j = _
        by_cases hj : j = i
        · subst hj; rw [set1_same, if_pos (by omega), hsi]
        · rw [set1_ne _ _ hj, h1]
          have : (j < i) = (j < i + 1) := propext ⟨by omega, by omega⟩
          simp only [this]
      · show s.2 + (set1 s.1 i _ i).fit = _
        rw [set1_same, hsi, h2, Finset.sum_range_succ])
  generalize forUp 0 env.num _ _ = s at hloop
  obtain ⟨h1, h2⟩ := hloop
  have hpos : ∀ j < env.num, 0 ≤ (p j).fit - fmin := by
    intro j hj; rw [hf]; have := hs j (env.num - 1) (by omega) (by omega); linarith
  have hs0 : 0 ≤ s.2 := by rw [h2]; exact Finset.sum_nonneg fun j hj => hpos j (Finset.mem_range.1 hj)
  have hsg : ∀ i, (s.1 i).gene = (p i).gene := by intro i; rw [h1]; split_ifs <;> rfl
  by_cases ht : |s.2| ≤ env.tol
  · rw [if_pos ht, forUp_set1 _ _ (fun k => { s.1 k with fit := 1 }) (by
      intro k t h1 h2 h3 h4; rw [h4 k (by omega)])]
    refine ⟨fun i => ?_, fun a b hab hb => ?_, fun i hi => ?_, ?_⟩
    · beta_reduce; split_ifs <;> exact hsg i
    · beta_reduce; rw [if_pos (by omega), if_pos (by omega)]
    · beta_reduce; rw [if_pos (by omega)]; exact zero_le_one
    · rw [Finset.sum_congr rfl (g := fun _ => (1:K)) (fun i hi => by
        beta_reduce; rw [if_pos ⟨Nat.zero_le _, Finset.mem_range.1 hi⟩])]
      simp only [Finset.sum_const, Finset.card_range, nsmul_eq_mul, mul_one]
      exact_mod_cast hn
  · have hspos : 0 < s.2 := by
      rcases hs0.eq_or_lt with h | h
      · rw [← h, abs_zero] at ht; exact absurd htol ht
      · exact h
    rw [if_neg ht, forUp_set1 _ _ (fun k => { s.1 k with fit := (s.1 k).fit / s.2 }) (by
      intro k t h1 h2 h3 h4; rw [h4 k (by omega)])]
    have hfit : ∀ i < env.num, (s.1 i).fit = (p i).fit - fmin := by intro i hi; rw [h1, if_pos hi]
    refine ⟨fun i => ?_, fun a b hab hb => ?_, fun i hi => ?_, ?_⟩
    · beta_reduce; split_ifs <;> exact hsg i
    · beta_reduce; rw [if_pos (by omega), if_pos (by omega)]
      show (s.1 b).fit / s.2 ≤ (s.1 a).fit / s.2
      rw [hfit a (by omega), hfit b hb]
      have := hs a b hab hb
      gcongr
    · beta_reduce; rw [if_pos (by omega)]
      show 0 ≤ (s.1 i).fit / s.2
      rw [hfit i hi]; exact div_nonneg (hpos i hi) hs0
    · rw [Finset.sum_congr rfl (g := fun i => ((p i).fit - fmin) / s.2) (fun i hi => by
        have hi' := Finset.mem_range.1 hi
        beta_reduce; rw [if_pos ⟨Nat.zero_le _, hi'⟩]
        show (s.1 i).fit / s.2 = _
        rw [hfit i hi']), ← Finset.sum_div, ← h2, div_self hspos.ne']

/-- C69, the sort of the population: it is a rearrangement by descending fitness (ascending objective), and the value kept is that of the first. -/
theorem sort_spec (env : Env K) (htol : 0 ≤ env.tol) (hn : 0 < env.num) (p : Nat → Chrom K) :
    ∃ ga, sort env p = .ok ga ∧ (∃ σ : Equiv.Perm Nat, (∀ k, (ga.ind k).gene = (p (σ k)).gene) ∧ ∀ k, env.num ≤ k → σ k = k) ∧
      ((∀ i < env.num, InBox env (p i)) → Inv env ga) := by
  unfold sort
  dsimp only
  rw [if_neg (by omega), forUp_set1 _ _ (fun k => { p k with fit := - env.f (p k).gene }) (by
      intro k t h1 h2 h3 h4; rw [h4 k (by omega)])]
  obtain ⟨p', hp'⟩ : ∃ p', p' = (fun j => if 0 ≤ j ∧ j < env.num then { p j with fit := - env.f (p j).gene } else p j : Nat → Chrom K) := ⟨_, rfl⟩
  rw [← hp']
  have hg : ∀ j, (p' j).gene = (p j).gene := by intro j; rw [hp']; beta_reduce; split_ifs <;> rfl
  have hfit : ∀ j < env.num, (p' j).fit = - env.f (p' j).gene := by
    intro j hj; rw [hp']; beta_reduce; rw [if_pos ⟨Nat.zero_le _, hj⟩]
  obtain ⟨q, e, r, hsorted⟩ := quickSort_spec env.num env.num p' 0 (env.num - 1) (by omega) (by omega) (by omega)
  rw [e]
  dsimp only
  obtain ⟨n1, n2, n3, n4⟩ := normalise_spec env htol hn q (fun a b hab hb => hsorted a b (Nat.zero_le _) hab (by omega))
  have hqfit : ∀ j < env.num, (q j).fit = - env.f (q j).gene := fun j hj =>
    r.inside (fun c => c.fit = - env.f c.gene) (fun k h1 h2 => hfit k (by omega)) (Nat.zero_le _) (by omega)
  refine ⟨_, rfl, ?_, ?_⟩
  · obtain ⟨σ, a, b⟩ := r
    exact ⟨σ, fun k => by rw [n1, a, hg], fun k hk => b k (by omega)⟩
  · intro hbox
    refine ⟨fun i hi j hj => ?_, ?_, fun a b hab hb => ?_, n2, n3, n4⟩
    · show env.lo j ≤ (normalise env q i).gene j ∧ (normalise env q i).gene j ≤ env.hi j
      rw [n1]
      exact r.inside (InBox env) (fun k _ h2 j hj => by rw [hg]; exact hbox k (by omega) j hj) (Nat.zero_le i) (by omega) j hj
    · show - (q 0).fit = env.f (normalise env q 0).gene
      rw [n1, hqfit 0 hn, neg_neg]
    · show env.f (normalise env q a).gene ≤ env.f (normalise env q b).gene
      have := hsorted a b (Nat.zero_le _) hab (by omega)
      rw [hqfit a (by omega), hqfit b hb] at this
      rw [n1, n1]
      linarith

theorem chromRand_box (env : Env K) (hb : ∀ j < env.n, env.lo j ≤ env.hi j) (un : Nat → K) (hu : ∀ j, 0 ≤ un j ∧ un j ≤ 1) (c : Chrom K) :
    InBox env (chromRand env un c) := by
  intro j hj
  show env.lo j ≤ (if j < env.n then env.lo j + un j * (env.hi j - env.lo j) else c.gene j) ∧ (if j < env.n then env.lo j + un j * (env.hi j - env.lo j) else c.gene j) ≤ env.hi j
  rw [if_pos hj]
  have h1 := hb j hj
  have h2 := hu j
  constructor <;> nlinarith

/-- `zOptGARand` establishes the invariant. -/
theorem zOptGARand_spec (env : Env K) (htol : 0 ≤ env.tol) (hn : 0 < env.num) (hb : ∀ j < env.n, env.lo j ≤ env.hi j) (un : Nat → Nat → K)
    (hu : ∀ i j, 0 ≤ un i j ∧ un i j ≤ 1) (p : Nat → Chrom K) : ∃ ga, zOptGARand env un p = .ok ga ∧ Inv env ga := by
  unfold zOptGARand
  rw [forUp_set1 _ _ (fun k => chromRand env (un k) (p k)) (by intro k t h1 h2 h3 h4; rw [h4 k (by omega)])]
  obtain ⟨ga, e, -, h⟩ := sort_spec env htol hn (fun j => if 0 ≤ j ∧ j < env.num then chromRand env (un j) (p j) else p j)
  refine ⟨ga, e, h fun i hi => ?_⟩
  rw [if_pos ⟨Nat.zero_le _, hi⟩]
  exact chromRand_box env hb _ (hu i) _

/-- Roulette: an individual that is drawn with a number below one has a positive fitness. -/
theorem select_spec (num : Nat) (p : Nat → Chrom K) (htot : 1 ≤ ∑ i ∈ Finset.range num, (p i).fit) (pr : K) (h0 : 0 ≤ pr) (h1 : pr < 1) :
    select num p pr < num ∧ 0 < (p (select num p pr)).fit := by
  have go : ∀ k rate, k ≤ num → rate = ∑ i ∈ Finset.range (num - k), (p i).fit → rate ≤ pr →
      selectGo num p pr k rate < num ∧ 0 < (p (selectGo num p pr k rate)).fit := by
    intro k
    induction k with
    | zero => intro rate _ hr hle; rw [Nat.sub_zero] at hr; linarith
    | succ k ih =>
      intro rate hk hr hle
      unfold selectGo
      by_cases h : rate + (p (num - (k+1))).fit > pr
      · rw [if_pos h]; exact ⟨by omega, by linarith⟩
      · rw [if_neg h]
        refine ih _ (by omega) ?_ (not_lt.1 h)
        rw [show num - k = num - (k+1) + 1 by omega, Finset.sum_range_succ, hr]
  exact go num 0 le_rfl (by simp) h0

/-- The crossover of individuals of the box stays in it. -/
theorem crossover_spec (env : Env K) (d : Draw K) (hs1 : ∀ i, 0 ≤ d.sel1 i ∧ d.sel1 i < 1) (hs2 : ∀ i, 0 ≤ d.sel2 i ∧ d.sel2 i < 1) (p : Nat → Chrom K)
    (hbox : ∀ i < env.num, InBox env (p i)) (hnn : ∀ i < env.num, 0 ≤ (p i).fit) (htot : 1 ≤ ∑ i ∈ Finset.range env.num, (p i).fit) :
    ∃ q, crossover env d p = .ok q ∧ (∀ i < env.num, InBox env (q i)) ∧ (∀ i < env.ns, q i = p i) := by
  unfold crossover
  by_cases hle : env.ns ≤ env.num
  swap
  · rw [forUpM_nil (by omega)]
    exact ⟨p, rfl, hbox, fun _ _ => rfl⟩
  obtain ⟨q, e, h1, -, h3⟩ := forUpM_ok (lo := env.ns) (hi := env.num) (crossStep env d) p
    (P := fun k q => (∀ i < env.num, InBox env (q i)) ∧ (∀ i, (q i).fit = (p i).fit) ∧ (∀ i < env.ns, q i = p i)) hle
    ⟨hbox, fun _ => rfl, fun _ _ => rfl⟩
    (by
      rintro i q hi1 hi2 ⟨h1, h2, h3⟩
      have htot' : 1 ≤ ∑ i ∈ Finset.range env.num, (q i).fit := by simpa only [h2] using htot
      obtain ⟨a1, a2⟩ := select_spec env.num q htot' (d.sel1 i) (hs1 i).1 (hs1 i).2
      obtain ⟨b1, b2⟩ := select_spec env.num q htot' (d.sel2 i) (hs2 i).1 (hs2 i).2
      unfold crossStep
      generalize select env.num q (d.sel1 i) = s at a1 a2 ⊢
      generalize select env.num q (d.sel2 i) = t at b1 b2 ⊢
      have hx : xover env.n (q s) (q t) (q i) = .ok { q i with gene := fun j => if j < env.n then (q t).gene j + (q s).fit / ((q s).fit + (q t).fit) * ((q s).gene j - (q t).gene j) else (q i).gene j } := by
        unfold xover
        rw [if_neg (by linarith)]
      refine ⟨set1 q i { q i with gene := fun j => if j < env.n then (q t).gene j + (q s).fit / ((q s).fit + (q t).fit) * ((q s).gene j - (q t).gene j) else (q i).gene j }, by rw [hx], ?_, ?_, ?_⟩
      · intro l hl
        by_cases hli : l = i
        · subst hli
          rw [set1_same]
          intro j hj
          show env.lo j ≤ (if j < env.n then _ else _) ∧ (if j < env.n then _ else _) ≤ env.hi j
          rw [if_pos hj]
          have hr0 : 0 ≤ (q s).fit / ((q s).fit + (q t).fit) := by positivity
          have hr1 : (q s).fit / ((q s).fit + (q t).fit) ≤ 1 := by rw [div_le_one (by linarith)]; linarith
          generalize (q s).fit / ((q s).fit + (q t).fit) = r at hr0 hr1
          have hs := h1 s a1 j hj
          have ht := h1 t b1 j hj
          constructor <;> nlinarith
        · rw [set1_ne _ _ hli]; exact h1 l hl
      · intro l
        by_cases hli : l = i
        · subst hli; rw [set1_same]; exact h2 l
        · rw [set1_ne _ _ hli]; exact h2 l
      · intro l hl
        rw [set1_ne _ _ (by omega)]; exact h3 l hl)
  exact ⟨q, e, h1, h3⟩

theorem mutate_eq (env : Env K) (d : Draw K) (p : Nat → Chrom K) :
    mutate env d p = fun i => if i < env.num ∧ d.pm i < env.rateMut then chromRand env (d.un i) (p i) else p i := by
  unfold mutate
  have := forUp_inv (lo := 0) (hi := env.num) (fun i (q : Nat → Chrom K) => if d.pm i < env.rateMut then set1 q i (chromRand env (d.un i) (q i)) else q) p
    (fun k q => ∀ i, q i = if i < k ∧ d.pm i < env.rateMut then chromRand env (d.un i) (p i) else p i) (Nat.zero_le _)
    (by intro i; rw [if_neg (by omega)])
    (by
      intro k q _ hk h i
      by_cases hm : d.pm k < env.rateMut
      · rw [if_pos hm]
        by_cases hik : i = k
        · subst hik; rw [set1_same, if_pos ⟨by omega, hm⟩, h, if_neg (by omega)]
        · rw [set1_ne _ _ hik, h]
          have : (i < k) = (i < k + 1) := propext ⟨by omega, by omega⟩
          simp only [this]
      · rw [if_neg hm, h]
        by_cases hik : i = k
        · subst hik; rw [if_neg (by omega), if_neg (by tauto)]
        · have : (i < k) = (i < k + 1) := propext ⟨by omega, by omega⟩
          simp only [this])
  funext i
  exact this i

/-- Random numbers as the generator gives them; the ones for the roulette are below one. -/
structure DrawOk (d : Draw K) : Prop where
  sel1 : ∀ i, 0 ≤ d.sel1 i ∧ d.sel1 i < 1
  sel2 : ∀ i, 0 ≤ d.sel2 i ∧ d.sel2 i < 1
  un : ∀ i j, 0 ≤ d.un i j ∧ d.un i j ≤ 1

/-- C69, one generation: no division by zero, and the invariant is kept; the value does not get worse if the best individual survives and does not
mutate. -/
theorem zOptGAReproduce_spec (env : Env K) (htol : 0 ≤ env.tol) (hn : 0 < env.num) (hb : ∀ j < env.n, env.lo j ≤ env.hi j) (d : Draw K) (hd : DrawOk d)
    (ga : GA K) (h : Inv env ga) :
    ∃ ga', zOptGAReproduce env d ga = .ok ga' ∧ Inv env ga' ∧ (0 < env.ns → ¬ d.pm 0 < env.rateMut → ga'.eval ≤ ga.eval) := by
  obtain ⟨q, e, h1, h2⟩ := crossover_spec env d hd.sel1 hd.sel2 ga.ind h.box h.nonneg h.total
  unfold zOptGAReproduce
  rw [e]
  dsimp only
  rw [mutate_eq]
  obtain ⟨ga', e', ⟨σ, hσ, hσ'⟩, hinv⟩ := sort_spec env htol hn (fun i => if i < env.num ∧ d.pm i < env.rateMut then chromRand env (d.un i) (q i) else q i)
  have hi' := hinv (by
    intro i hi
    split_ifs
    · exact chromRand_box env hb _ (hd.un i) _
    · exact h1 i hi)
  refine ⟨ga', e', hi', fun hns hm => ?_⟩
  have hlt : σ.symm 0 < env.num := by
    by_contra hge
    have := hσ' (σ.symm 0) (by omega)
    rw [Equiv.apply_symm_apply] at this
    omega
  have hg := hσ (σ.symm 0)
  rw [Equiv.apply_symm_apply, if_neg (by tauto), h2 0 hns] at hg
  rw [hi'.value, h.value, ← hg]
  exact hi'.sorted 0 _ (Nat.zero_le _) hlt

/-- C69: for every objective and all random numbers the solver gives a point of the box with its value. -/
theorem zOptSolveGA_spec_partial (env : Env K) (htol : 0 ≤ env.tol) (hn : 0 < env.num) (hb : ∀ j < env.n, env.lo j ≤ env.hi j) (un : Nat → Nat → K)
    (hu : ∀ i j, 0 ≤ un i j ∧ un i j ≤ 1) (d : Nat → Draw K) (hd : ∀ i, DrawOk (d i)) (iter : Int) (p : Nat → Chrom K) :
    ∃ ans v, zOptSolveGA env un d iter p = .ok (ans, v) ∧ (∀ j < env.n, env.lo j ≤ ans j ∧ ans j ≤ env.hi j) ∧ v = env.f ans := by
  obtain ⟨ga, e, hi⟩ := zOptGARand_spec env htol hn hb un hu p
  unfold zOptSolveGA
  rw [e]
  dsimp only
  unfold zOptGASolve
  dsimp only
  obtain ⟨ga', e', hi'⟩ := forUpM_ok (lo := 0) (hi := if iter = 0 then 1000 else iter.toNat) (fun i ga => zOptGAReproduce env (d i) ga) ga
    (P := fun _ ga => Inv env ga) (Nat.zero_le _) hi
    (by
      intro i ga _ _ h
      obtain ⟨ga', e', h', -⟩ := zOptGAReproduce_spec env htol hn hb (d i) (hd i) ga h
      exact ⟨ga', e', h'⟩)
  rw [e']
  exact ⟨_, _, rfl, hi'.box 0 hn, hi'.value⟩

/-! ## What fails -/

/-- An example: two individuals on the line from 0 to 4, the objective is `x`. -/
def envEx : Env ℚ := { n := 1, num := 2, f := fun x => x 0, lo := fun _ => 0, hi := fun _ => 4, ns := 1, rateMut := 1/10, tol := 0 }

/-- Its initial population at 1 and 3. -/
def gaEx : Res (GA ℚ) := zOptGARand envEx (fun i _ => if i = 0 then 3/4 else 1/4) (fun _ => ⟨0, fun _ => 0⟩)

/-- The example satisfies the assumptions. -/
example : ∃ ga, gaEx = .ok ga ∧ Inv envEx ga :=
  zOptGARand_spec envEx (by simp [envEx]) (by decide) (by intro j _; norm_num [envEx]) _ (by intro i j; split_ifs <;> norm_num) _

/-- The generator includes the number one: the roulette then falls through to the worst individual, whose fitness is zero, and the crossover divides
zero by zero. -/
theorem zOptGAReproduce_one_violated :
    (match gaEx with
      | .ok ga => match zOptGAReproduce envEx ⟨fun _ => 1, fun _ => 1, fun _ => 1, fun _ _ => 0⟩ ga with | .ub => true | _ => false
      | _ => false) = true := by decide +kernel

/-- The best individual is not kept: it may mutate, and the value reported gets worse. -/
theorem zOptGAReproduce_best_violated :
    (match gaEx with
      | .ok ga => match zOptGAReproduce envEx ⟨fun _ => 0, fun _ => 0, fun _ => 0, fun _ _ => 1/2⟩ ga with
        | .ok ga' => decide (ga.eval = 1 ∧ ga'.eval = 2) | _ => false
      | _ => false) = true := by decide +kernel

/-- A generation without mutation. -/
example :
    (match gaEx with
      | .ok ga => match zOptGAReproduce envEx ⟨fun _ => 0, fun _ => 0, fun _ => 1, fun _ _ => 1/2⟩ ga with
        | .ok ga' => decide (ga.eval = 1 ∧ ga'.eval = 1 ∧ (ga'.ind 1).gene 0 = 1) | _ => false
      | _ => false) = true := by decide +kernel

end Zm.GA
