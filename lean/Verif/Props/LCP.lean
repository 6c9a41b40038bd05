import Verif.Model.LCP
import Verif.Props.LP
import Verif.Props.Stat

set_option linter.unusedSectionVars false
set_option linter.unusedVariables false

/-! # Linear complementarity and quadratic programming: C58, C59 -/

namespace Zm.LCP
open Zm Zm.LP
variable {K : Type*} [Field K] [LinearOrder K] [IsStrictOrderedRing K]

/-! ## Lemke's method -/

/-- The variables `0..n-1` are `z`, `n..2n-1` are `w`, `2n` is the artificial one.  Every variable is basic, active or neither; no basic variable
is the complement of another one. -/
structure Core (n : Nat) (l : Lemke K) : Prop where
  ib_lt : ∀ i < n, l.ib i < 2 * n + 1
  nb_lt : ∀ v ∈ l.nb, v < 2 * n
  act_lt : l.act < 2 * n + 1
  ib_inj : ∀ i < n, ∀ k < n, l.ib i = l.ib k → i = k
  nb_nodup : l.nb.Nodup
  disj : ∀ i < n, l.ib i ∉ l.nb
  act_nb : l.act ∉ l.nb
  act_ib : ∀ i < n, l.ib i ≠ l.act
  cover : ∀ v < 2 * n + 1, v ∈ l.nb ∨ v = l.act ∨ ∃ i < n, l.ib i = v
  unit : ∀ i < n, ∀ k < n, l.tab i (l.ib k) = if i = k then 1 else 0
  comp : ∀ i < n, ∀ k < n, l.ib k < n → l.ib i ≠ l.ib k + n

/-- The complement of the active variable is not basic. -/
def Free (n : Nat) (l : Lemke K) : Prop := l.act = 2 * n ∨ ∀ i < n, (l.act < n → l.ib i ≠ l.act + n) ∧ (l.ib i < n → l.ib i + n ≠ l.act)

/-- `x` solves the equations of the tableau. -/
def Sys (n : Nat) (l : Lemke K) (x : Nat → K) : Prop := ∀ i < n, ∑ v ∈ Finset.range (2 * n + 1), l.tab i v * x v = l.p i

theorem sweep_spec {n : Nat} {l : Lemke K} (h : Core n l) {p : Nat} (hp : p < n) (hap : l.tab p l.act ≠ 0) :
    ∃ tab' q', sweep n l p = .ok { l with tab := tab', p := q' } ∧
      (∀ i < n, ∀ v < 2 * n + 1, tab' i v = if i = p then l.tab p v / l.tab p l.act else l.tab i v - l.tab p v / l.tab p l.act * l.tab i l.act) ∧
      (∀ i < n, q' i = if i = p then l.p p / l.tab p l.act else l.p i - l.p p / l.tab p l.act * l.tab i l.act) := by
  set ap := l.tab p l.act with hapd
  unfold sweep
  dsimp only
  rw [← hapd, if_neg hap]
  refine ⟨_, _, rfl, ?_⟩
  have hcase : ∀ v < 2 * n + 1, (v ∈ l.nb ∧ v ≠ l.act ∧ v ≠ l.ib p) ∨ (v = l.act ∧ v ≠ l.ib p ∧ v ∉ l.nb) ∨ (v = l.ib p ∧ v ≠ l.act ∧ v ∉ l.nb) ∨
      (∃ k < n, k ≠ p ∧ l.ib k = v ∧ v ≠ l.ib p ∧ v ∉ l.nb ∧ v ≠ l.act) := by
    intro v hv
    rcases h.cover v hv with hm | rfl | ⟨k, hk, rfl⟩
    · exact Or.inl ⟨hm, fun e => h.act_nb (e ▸ hm), fun e => h.disj p hp (e ▸ hm)⟩
    · exact Or.inr (Or.inl ⟨rfl, (h.act_ib p hp).symm, h.act_nb⟩)
    · by_cases hkp : k = p
      · subst hkp; exact Or.inr (Or.inr (Or.inl ⟨rfl, h.act_ib k hk, h.disj k hk⟩))
      · exact Or.inr (Or.inr (Or.inr ⟨k, hk, hkp, rfl, fun e => hkp (h.ib_inj k hk p hp e), h.disj k hk, h.act_ib k hk⟩))
  set a1 := set2 (set2 (divRow l.nb p ap l.tab) p (l.ib p) (divRow l.nb p ap l.tab p (l.ib p) / ap)) p l.act 1 with ha1
  have e1 : ∀ v < 2 * n + 1, a1 p v = l.tab p v / ap := by
    intro v hv
    rcases hcase v hv with ⟨hm, h1, h2⟩ | ⟨rfl, h1, h2⟩ | ⟨rfl, h1, h2⟩ | ⟨k, hk, hkp, e, h1, h2, h3⟩
    · rw [ha1, set2_ne_col _ _ h1, set2_ne_col _ _ h2, divRow_spec _ h.nb_nodup]; simp [hm]
    · rw [ha1, set2_same, ← hapd, div_self hap]
    · rw [ha1, set2_ne_col _ _ h1, set2_same, divRow_spec _ h.nb_nodup]; simp [h2]
    · rw [ha1, set2_ne_col _ _ h3, set2_ne_col _ _ h1, divRow_spec _ h.nb_nodup, if_neg (by simp [h2]), ← e, h.unit p hp k hk, if_neg (Ne.symm hkp)]; simp
  have e1' : ∀ i, i ≠ p → ∀ v, a1 i v = l.tab i v := by
    intro i hi v
    rw [ha1, set2_ne_row _ _ hi, set2_ne_row _ _ hi, divRow_spec _ h.nb_nodup, if_neg (by simp [hi])]
  set b1 := set1 l.p p (l.p p / ap) with hb1
  have key := forUp_inv (sweepRow l p) (a1, b1) (P := fun j s =>
      (∀ i < n, ∀ v < 2 * n + 1, s.1 i v = if i = p then l.tab p v / ap else if i < j then l.tab i v - l.tab p v / ap * l.tab i l.act else l.tab i v) ∧
      (∀ i < n, s.2 i = if i = p then l.p p / ap else if i < j then l.p i - l.p p / ap * l.tab i l.act else l.p i))
    (Nat.zero_le n) ?_ ?_
  · constructor
    · intro i hi v hv
      rw [key.1 i hi v hv]
      by_cases hin : i = p
      · simp [hin]
      · simp [hin, hi]
    · intro i hi
      rw [key.2 i hi]
      by_cases hin : i = p
      · simp [hin]
      · simp [hin, hi]
  · constructor
    · intro i hi v hv
      by_cases hin : i = p
      · subst hin; simp only [if_true]; exact e1 v hv
      · rw [if_neg hin, if_neg (by omega)]
        exact e1' _ hin v
    · intro i hi
      by_cases hin : i = p
      · subst hin; simp [hb1]
      · rw [if_neg hin, if_neg (by omega)]
        exact set1_ne _ _ hin
  · rintro j s - hj ⟨ia, ib⟩
    unfold sweepRow
    by_cases hjn : j = p
    · rw [if_pos hjn]
      constructor
      · intro i hi v hv
        rw [ia i hi v hv]
        by_cases hin : i = p
        · simp [hin]
        · have : (i < j + 1) = (i < j) := by
            apply propext; constructor <;> intro <;> omega
          simp [hin, this]
      · intro i hi
        rw [ib i hi]
        by_cases hin : i = p
        · simp [hin]
        · have : (i < j + 1) = (i < j) := by
            apply propext; constructor <;> intro <;> omega
          simp [hin, this]
    · rw [if_neg hjn]
      dsimp only
      have hsC : s.1 j l.act = l.tab j l.act := by
        rw [ia j hj l.act h.act_lt, if_neg hjn, if_neg (by omega)]
      rw [hsC]
      constructor
      · intro i hi v hv
        by_cases hij : i = j
        · subst hij
          rw [if_neg hjn, if_pos (by omega)]
          have hRv := ia p hp v hv
          rw [if_pos rfl] at hRv
          have hqv := ia i hi v hv
          rw [if_neg hjn, if_neg (by omega)] at hqv
          rcases hcase v hv with ⟨hm, h1, h2⟩ | ⟨rfl, h1, h2⟩ | ⟨rfl, h1, h2⟩ | ⟨k, hk, hkp, e, h1, h2, h3⟩
          · rw [set2_ne_col _ _ h1, set2_ne_col _ _ h2, subRow_spec _ h.nb_nodup _ _ hjn, if_pos ⟨rfl, hm⟩, hqv, hRv]
          · rw [set2_same, ← hapd, div_self hap, one_mul, sub_self]
          · rw [set2_ne_col _ _ h1, set2_same, subRow_spec _ h.nb_nodup _ _ hjn, if_neg (by simp [h2]), hRv, h.unit i hi p hp, if_neg hjn]
            ring
          · rw [set2_ne_col _ _ h3, set2_ne_col _ _ h1, subRow_spec _ h.nb_nodup _ _ hjn, if_neg (by simp [h2]), hqv, ← e, h.unit p hp k hk, if_neg (Ne.symm hkp)]
            simp
        · rw [set2_ne_row _ _ hij, set2_ne_row _ _ hij, subRow_spec _ h.nb_nodup _ _ hjn, if_neg (by simp [hij]), ia i hi v hv]
          have : (i < j + 1) = (i < j) := by
            apply propext; constructor <;> intro <;> omega
          simp [this]
      · intro i hi
        by_cases hij : i = j
        · subst hij
          have hRv := ib p hp
          rw [if_pos rfl] at hRv
          have hqv := ib i hi
          rw [if_neg hjn, if_neg (by omega)] at hqv
          rw [if_neg hjn, if_pos (by omega), set1_same, hqv, hRv]
        · rw [set1_ne _ _ hij, ib i hi]
          have : (i < j + 1) = (i < j) := by
            apply propext; constructor <;> intro <;> omega
          simp [this]

theorem sweep_sys {n : Nat} {l : Lemke K} {p : Nat} (hp : p < n) (hap : l.tab p l.act ≠ 0) {tab' : Nat → Nat → K} {q' : Nat → K}
    (ha : ∀ i < n, ∀ v < 2 * n + 1, tab' i v = if i = p then l.tab p v / l.tab p l.act else l.tab i v - l.tab p v / l.tab p l.act * l.tab i l.act)
    (hb : ∀ i < n, q' i = if i = p then l.p p / l.tab p l.act else l.p i - l.p p / l.tab p l.act * l.tab i l.act) (x : Nat → K) :
    (∀ i < n, ∑ v ∈ Finset.range (2 * n + 1), tab' i v * x v = q' i) ↔ Sys n l x := by
  set ap := l.tab p l.act with hapd
  have hs : ∀ i < n, ∑ v ∈ Finset.range (2 * n + 1), tab' i v * x v = if i = p then (∑ v ∈ Finset.range (2 * n + 1), l.tab p v * x v) / ap
      else (∑ v ∈ Finset.range (2 * n + 1), l.tab i v * x v) - (∑ v ∈ Finset.range (2 * n + 1), l.tab p v * x v) / ap * l.tab i l.act := by
    intro i hi
    rw [Finset.sum_congr rfl fun v hv => by rw [ha i hi v (Finset.mem_range.1 hv)]]
    split_ifs with hin
    · rw [Finset.sum_div]; exact Finset.sum_congr rfl fun v _ => by ring
    · rw [Finset.sum_div, Finset.sum_mul, ← Finset.sum_sub_distrib]; exact Finset.sum_congr rfl fun v _ => by ring
  constructor
  · intro hx i hi
    have hpp : ∑ v ∈ Finset.range (2 * n + 1), l.tab p v * x v = l.p p := by
      have := hx p hp
      rw [hs p hp, if_pos rfl, hb p hp, if_pos rfl] at this
      field_simp at this
      exact this
    by_cases hin : i = p
    · rw [hin]; exact hpp
    · have := hx i hi
      rw [hs i hi, if_neg hin, hb i hi, if_neg hin, hpp] at this
      exact sub_left_injective this
  · intro hx i hi
    rw [hs i hi, hb i hi, hx p hp, hx i hi]

theorem mem_replaceFirst {l : List Nat} (hnd : l.Nodup) {old new : Nat} (ho : old ∈ l) (v : Nat) :
    v ∈ replaceFirst old new l ↔ v = new ∨ (v ∈ l ∧ v ≠ old) := by
  induction l with
  | nil => simp at ho
  | cons y l ih =>
    rw [List.nodup_cons] at hnd
    unfold replaceFirst
    by_cases hy : y = old
    · subst hy
      rw [if_pos rfl, List.mem_cons, List.mem_cons]
      constructor
      · rintro (h | h)
        · exact Or.inl h
        · exact Or.inr ⟨Or.inr h, fun e => hnd.1 (e ▸ h)⟩
      · rintro (h | ⟨h | h, h'⟩)
        · exact Or.inl h
        · exact absurd h h'
        · exact Or.inr h
    · have ho' : old ∈ l := (List.mem_cons.1 ho).resolve_left (fun e => hy e.symm)
      rw [if_neg hy, List.mem_cons, List.mem_cons, ih hnd.2 ho']
      constructor
      · rintro (h | h | h)
        · exact Or.inr ⟨Or.inl h, by rw [h]; exact hy⟩
        · exact Or.inl h
        · exact Or.inr ⟨Or.inr h.1, h.2⟩
      · rintro (h | ⟨h | h, h'⟩)
        · exact Or.inr (Or.inl h)
        · exact Or.inl h
        · exact Or.inr (Or.inr ⟨h, h'⟩)

theorem nodup_replaceFirst {l : List Nat} (hnd : l.Nodup) {old new : Nat} (ho : old ∈ l) (hn : new ∉ l) : (replaceFirst old new l).Nodup := by
  induction l with
  | nil => simp at ho
  | cons y l ih =>
    rw [List.nodup_cons] at hnd
    rw [List.mem_cons, not_or] at hn
    unfold replaceFirst
    by_cases hy : y = old
    · rw [if_pos hy, List.nodup_cons]; exact ⟨hn.2, hnd.2⟩
    · have ho' : old ∈ l := (List.mem_cons.1 ho).resolve_left (fun e => hy e.symm)
      rw [if_neg hy, List.nodup_cons, mem_replaceFirst hnd.2 ho']
      refine ⟨?_, ih hnd.2 ho' hn.2⟩
      rintro (h | h)
      · exact hn.1 h.symm
      · exact hnd.1 h.1

/-- The base after a step; what the answer is read from. -/
structure Base (n : Nat) (l : Lemke K) : Prop where
  ib_lt : ∀ i < n, l.ib i < 2 * n + 1
  ib_inj : ∀ i < n, ∀ k < n, l.ib i = l.ib k → i = k
  unit : ∀ i < n, ∀ k < n, l.tab i (l.ib k) = if i = k then 1 else 0
  comp : ∀ i < n, ∀ k < n, l.ib k < n → l.ib i ≠ l.ib k + n

/-- A step of Lemke's method: sweep and exchange. -/
theorem step_spec {n : Nat} {l : Lemke K} (h : Core n l) (hf : Free n l) {p : Nat} (hp : p < n) (hap : l.tab p l.act ≠ 0) :
    ∃ l1, sweep n l p = .ok l1 ∧ Base n (swap n l1 p).1 ∧ (∀ x, Sys n (swap n l1 p).1 x ↔ Sys n l x) ∧
      (swap n l1 p).1.ib = set1 l.ib p l.act ∧ (swap n l1 p).2 = decide (l.ib p = 2 * n) ∧
      (l.ib p ≠ 2 * n → Core n (swap n l1 p).1 ∧ Free n (swap n l1 p).1) ∧
      (∀ i < n, (swap n l1 p).1.p i = if i = p then l.p p / l.tab p l.act else l.p i - l.p p / l.tab p l.act * l.tab i l.act) := by
  obtain ⟨tab', q', e, ha, hb⟩ := sweep_spec h hp hap
  have hbase : Base n (swap n { l with tab := tab', p := q' } p).1 := by
    constructor
    · intro i hi
      show set1 l.ib p l.act i < _
      by_cases hip : i = p
      · rw [hip, set1_same]; exact h.act_lt
      · rw [set1_ne _ _ hip]; exact h.ib_lt i hi
    · intro i hi k hk
      show set1 l.ib p l.act i = set1 l.ib p l.act k → i = k
      intro hik
      by_cases hip : i = p
      · by_cases hkp : k = p
        · omega
        · rw [hip, set1_same, set1_ne _ _ hkp] at hik
          exact absurd hik.symm (h.act_ib k hk)
      · by_cases hkp : k = p
        · rw [hkp, set1_same, set1_ne _ _ hip] at hik
          exact absurd hik (h.act_ib i hi)
        · rw [set1_ne _ _ hip, set1_ne _ _ hkp] at hik
          exact h.ib_inj i hi k hk hik
    · intro i hi k hk
      show tab' i (set1 l.ib p l.act k) = _
      by_cases hkp : k = p
      · rw [hkp, set1_same, ha i hi _ h.act_lt]
        by_cases hip : i = p
        · rw [if_pos hip, if_pos hip]; exact div_self hap
        · rw [if_neg hip, if_neg hip, div_self hap, one_mul, sub_self]
      · rw [set1_ne _ _ hkp, ha i hi _ (h.ib_lt k hk), h.unit p hp k hk, h.unit i hi k hk, if_neg (Ne.symm hkp)]
        by_cases hip : i = p
        · subst hip; rw [if_pos rfl, if_neg (Ne.symm hkp), zero_div]
        · rw [if_neg hip]; simp
    · intro i hi k hk
      show set1 l.ib p l.act k < n → set1 l.ib p l.act i ≠ set1 l.ib p l.act k + n
      by_cases hip : i = p
      · by_cases hkp : k = p
        · rw [hip, hkp]; omega
        · rw [hip, set1_same, set1_ne _ _ hkp]
          intro hkn
          rcases hf with hf | hf
          · rw [hf]; omega
          · exact fun e => (hf k hk).2 hkn e.symm
      · by_cases hkp : k = p
        · rw [hkp, set1_same, set1_ne _ _ hip]
          intro hkn
          rcases hf with hf | hf
          · omega
          · exact (hf i hi).1 hkn
        · rw [set1_ne _ _ hip, set1_ne _ _ hkp]; exact h.comp i hi k hk
  refine ⟨_, e, hbase, ?_, rfl, rfl, ?_, hb⟩
  · intro x
    exact sweep_sys hp hap ha hb x
  · intro hne
    have hbp := h.ib_lt p hp
    obtain ⟨act', hact'⟩ : ∃ act', act' = (l.ib p + n) % (2 * n) := ⟨_, rfl⟩
    have hval : (l.ib p < n ∧ act' = l.ib p + n) ∨ (n ≤ l.ib p ∧ act' + n = l.ib p) := by
      by_cases hlt : l.ib p < n
      · left; refine ⟨hlt, ?_⟩
        rw [hact', Nat.mod_eq_of_lt (by omega)]
      · right
        refine ⟨by omega, ?_⟩
        rw [hact', show l.ib p + n = (l.ib p - n) + 2 * n by omega, Nat.add_mod_right, Nat.mod_eq_of_lt (by omega)]
        omega
    have hne_act : act' ≠ l.act := by
      intro e
      rcases hf with hf | hf
      · omega
      · rcases hval with ⟨h1, h2⟩ | ⟨h1, h2⟩
        · exact (hf p hp).2 h1 (by omega)
        · exact (hf p hp).1 (by omega) (by omega)
    have hni : ∀ i < n, l.ib i ≠ act' := by
      intro i hi e
      rcases hval with ⟨h1, h2⟩ | ⟨h1, h2⟩
      · exact h.comp i hi p hp h1 (by omega)
      · exact h.comp p hp i hi (by omega) (by omega)
    have hmem : act' ∈ l.nb := by
      rcases h.cover act' (by omega) with hm | hm | ⟨i, hi, hm⟩
      · exact hm
      · exact absurd hm hne_act
      · exact absurd hm (hni i hi)
    have hmr := mem_replaceFirst h.nb_nodup (new := l.ib p) hmem
    have hib : ∀ i < n, i ≠ p → l.ib i ≠ l.ib p := fun i hi hip e => hip (h.ib_inj i hi p hp e)
    have hL : (swap n { l with tab := tab', p := q' } p).1 =
        { l with tab := tab', p := q', ib := set1 l.ib p l.act, act := act', nb := replaceFirst act' (l.ib p) l.nb } := by rw [hact']; rfl
    rw [hL] at hbase ⊢
    refine ⟨⟨hbase.ib_lt, ?_, ?_, hbase.ib_inj, nodup_replaceFirst h.nb_nodup hmem (h.disj p hp), ?_, ?_, ?_, ?_, hbase.unit, hbase.comp⟩, Or.inr ?_⟩
    · intro v hv
      rcases (hmr v).1 hv with rfl | hv
      · omega
      · exact h.nb_lt v hv.1
    · show act' < 2 * n + 1
      omega
    · intro i hi hm
      rcases (hmr _).1 hm with e | e
      · change set1 l.ib p l.act i = l.ib p at e
        by_cases hip : i = p
        · rw [hip, set1_same] at e; exact h.act_ib p hp e.symm
        · rw [set1_ne _ _ hip] at e; exact hib i hi hip e
      · obtain ⟨e, -⟩ := e
        change set1 l.ib p l.act i ∈ l.nb at e
        by_cases hip : i = p
        · rw [hip, set1_same] at e; exact h.act_nb e
        · rw [set1_ne _ _ hip] at e; exact h.disj i hi e
    · intro hm
      rcases (hmr _).1 hm with e | e
      · change act' = l.ib p at e
        omega
      · exact e.2 rfl
    · intro i hi
      show set1 l.ib p l.act i ≠ act'
      by_cases hip : i = p
      · rw [hip, set1_same]; exact hne_act.symm
      · rw [set1_ne _ _ hip]; exact hni i hi
    · intro v hv
      show v ∈ replaceFirst act' (l.ib p) l.nb ∨ v = act' ∨ ∃ i < n, set1 l.ib p l.act i = v
      rw [hmr]
      by_cases hva : v = act'
      · exact Or.inr (Or.inl hva)
      rcases h.cover v hv with hm | rfl | ⟨k, hk, rfl⟩
      · exact Or.inl (Or.inr ⟨hm, hva⟩)
      · exact Or.inr (Or.inr ⟨p, hp, set1_same _ _ _⟩)
      · by_cases hkp : k = p
        · rw [hkp]; exact Or.inl (Or.inl rfl)
        · exact Or.inr (Or.inr ⟨k, hk, set1_ne _ _ hkp⟩)
    · intro i hi
      show (act' < n → set1 l.ib p l.act i ≠ act' + n) ∧ (set1 l.ib p l.act i < n → set1 l.ib p l.act i + n ≠ act')
      have hne' : set1 l.ib p l.act i ≠ l.ib p := by
        by_cases hip : i = p
        · rw [hip, set1_same]; exact (h.act_ib p hp).symm
        · rw [set1_ne _ _ hip]; exact hib i hi hip
      omega

theorem pivotScan_spec {tst : Tst K} {l : Lemke K} (k i : Nat) (best : Option (K × Nat))
    (hbest : ∀ b ∈ best, b.2 < i ∧ tst.skip (l.tab b.2 l.act) = false ∧ b.1 = l.p b.2 / l.tab b.2 l.act)
    (hmin : ∀ j < i, tst.skip (l.tab j l.act) = false → ∃ b ∈ best, b.1 ≤ l.p j / l.tab j l.act) {np : Nat}
    (h : pivotScan tst l k i best = some np) :
    np < i + k ∧ tst.skip (l.tab np l.act) = false ∧ ∀ j < i + k, tst.skip (l.tab j l.act) = false → l.p np / l.tab np l.act ≤ l.p j / l.tab j l.act := by
  induction k generalizing i best with
  | zero =>
    cases best with
    | none => simp [pivotScan] at h
    | some b =>
      simp only [pivotScan, Option.map_some, Option.some.injEq] at h
      subst h
      obtain ⟨b1, b2, b3⟩ := hbest b rfl
      refine ⟨b1, b2, fun j hj hs => ?_⟩
      obtain ⟨b', hb', hle⟩ := hmin j hj hs
      rw [Option.mem_def, Option.some.injEq] at hb'
      subst hb'
      rw [← b3]; exact hle
  | succ k ih =>
    unfold pivotScan at h
    dsimp only at h
    have e : i + (k + 1) = (i + 1) + k := by omega
    rw [e]
    split_ifs at h with hs
    · refine ih (i + 1) best (fun b hb => ⟨(hbest b hb).1.trans (Nat.lt_succ_self i), (hbest b hb).2⟩) ?_ h
      intro j hj hsj
      by_cases hji : j = i
      · subst hji; rw [hs] at hsj; exact absurd hsj (by simp)
      · exact hmin j (by omega) hsj
    · have hsf : tst.skip (l.tab i l.act) = false := by simpa using hs
      refine ih (i + 1) _ ?_ ?_ h
      · intro b hb
        cases best with
        | none =>
          simp only [npStep, Option.mem_def, Option.some.injEq] at hb
          subst hb
          exact ⟨Nat.lt_succ_self i, hsf, rfl⟩
        | some q =>
          obtain ⟨pm, j⟩ := q
          simp only [npStep] at hb
          split_ifs at hb with hlt
          · simp only [Option.mem_def, Option.some.injEq] at hb
            subst hb
            exact ⟨Nat.lt_succ_self i, hsf, rfl⟩
          · exact ⟨(hbest b hb).1.trans (Nat.lt_succ_self i), (hbest b hb).2⟩
      · intro j hj hsj
        cases best with
        | none =>
          refine ⟨_, rfl, ?_⟩
          by_cases hji : j = i
          · subst hji; exact le_rfl
          · obtain ⟨b', hb', -⟩ := hmin j (by omega) hsj
            simp at hb'
        | some q =>
          obtain ⟨pm, j'⟩ := q
          simp only [npStep]
          split_ifs with hlt
          · refine ⟨_, rfl, ?_⟩
            by_cases hji : j = i
            · subst hji; exact le_rfl
            · obtain ⟨b', hb', hle⟩ := hmin j (by omega) hsj
              rw [Option.mem_def, Option.some.injEq] at hb'
              subst hb'
              exact hlt.le.trans hle
          · refine ⟨_, rfl, ?_⟩
            by_cases hji : j = i
            · subst hji; exact not_lt.1 hlt
            · obtain ⟨b', hb', hle⟩ := hmin j (by omega) hsj
              rw [Option.mem_def, Option.some.injEq] at hb'
              subst hb'
              exact hle

/-- The loop ends with a base without the artificial variable, for the same equations. -/
theorem iter_spec {tst : Tst K} (hg : tst.Good) {n : Nat} (fuel : Nat) {l l' : Lemke K} (h : Core n l) (hf : Free n l)
    (hr : iter tst n fuel l = .ok l') :
    Base n l' ∧ (∀ i < n, l'.ib i ≠ 2 * n) ∧ (∀ x, Sys n l' x ↔ Sys n l x) ∧
      ((∀ a, tst.skip a = true → a ≤ 0) → (∀ i < n, 0 ≤ l.p i) → ∀ i < n, 0 ≤ l'.p i) := by
  induction fuel generalizing l with
  | zero => simp [iter] at hr
  | succ fuel ih =>
    unfold iter at hr
    cases hp : pivot tst n l with
    | none => rw [hp] at hr; simp at hr
    | some p =>
      rw [hp] at hr
      dsimp only at hr
      obtain ⟨p1, p2, p3⟩ := pivotScan_spec n 0 none (by simp) (by intro j hj; omega) hp
      rw [Nat.zero_add] at p1 p3
      have hap := hg.pos _ p2
      obtain ⟨l1, e1, hb, hs, hib, hd, hc, hpv⟩ := step_spec h hf p1 hap.ne'
      rw [e1] at hr
      dsimp only at hr
      have hnn : (∀ a, tst.skip a = true → a ≤ 0) → (∀ i < n, 0 ≤ l.p i) → ∀ i < n, 0 ≤ (swap n l1 p).1.p i := by
        intro hskip hq i hi
        rw [hpv i hi]
        have hbp := hq p p1
        split_ifs with hin
        · exact div_nonneg hbp hap.le
        · have hbi := hq i hi
          by_cases hsk : tst.skip (l.tab i l.act) = true
          · have := hskip _ hsk
            have h0 := div_nonneg hbp hap.le
            nlinarith
          · have hs' : tst.skip (l.tab i l.act) = false := by simpa using hsk
            have hpi := hg.pos _ hs'
            have := p3 i hi hs'
            rw [le_div_iff₀ hpi] at this
            linarith
      cases hsw : swap n l1 p with
      | mk l2 b =>
        rw [hsw] at hr hb hs hib hd hc hnn
        cases b with
        | true =>
          simp only [Res.ok.injEq] at hr
          subst hr
          refine ⟨hb, ?_, hs, hnn⟩
          have hb2 : l.ib p = 2 * n := by simpa using hd.symm
          intro i hi
          rw [hib]
          by_cases hip : i = p
          · rw [hip, set1_same]
            intro e
            exact h.act_ib p p1 (by omega)
          · rw [set1_ne _ _ hip]
            intro e
            exact hip (h.ib_inj i hi p p1 (by omega))
        | false =>
          dsimp only at hr
          have hb2 : l.ib p ≠ 2 * n := by simpa using hd.symm
          obtain ⟨c1, c2⟩ := hc hb2
          obtain ⟨i1, i2, i3, i4⟩ := ih c1 c2 hr
          exact ⟨i1, i2, fun x => (i3 x).trans (hs x), fun a b => i4 a (hnn a b)⟩

theorem create_core (n : Nat) (m : Nat → Nat → K) (q : Nat → K) : Core n (create n m q) ∧ Free n (create n m q) := by
  refine ⟨⟨?_, ?_, ?_, ?_, ?_, ?_, ?_, ?_, ?_, ?_, ?_⟩, Or.inl rfl⟩
  · intro i hi; show n + i < _; omega
  · intro v hv; have := List.mem_range.1 hv; omega
  · show 2 * n < _; omega
  · intro i _ k _ e; have : n + i = n + k := e; omega
  · exact List.nodup_range
  · intro i _ hm; have : n + i < n := List.mem_range.1 hm; omega
  · intro hm; have : 2 * n < n := List.mem_range.1 hm; omega
  · intro i hi; show n + i ≠ 2 * n; omega
  · intro v hv
    by_cases h1 : v < n
    · exact Or.inl (List.mem_range.2 h1)
    · by_cases h2 : v = 2 * n
      · exact Or.inr (Or.inl h2)
      · exact Or.inr (Or.inr ⟨v - n, by omega, by show n + (v - n) = v; omega⟩)
  · intro i hi k hk
    show (if n + k < n then _ else if n + k = i + n then (1:K) else if n + k = 2 * n then -1 else 0) = _
    rw [if_neg (by omega)]
    by_cases h : i = k
    · subst h; rw [if_pos (by omega), if_pos rfl]
    · rw [if_neg (by omega), if_neg (by omega), if_neg h]
  · intro i hi k hk hlt
    have : n + k < n := hlt
    omega

/-- The equations of the first tableau for vectors without the artificial variable. -/
theorem create_sys (n : Nat) (m : Nat → Nat → K) (q : Nat → K) (x : Nat → K) (h0 : x (2 * n) = 0) :
    Sys n (create n m q) x ↔ ∀ i < n, x (n + i) - ∑ j ∈ Finset.range n, m i j * x j = q i := by
  have hs : ∀ i < n, ∑ v ∈ Finset.range (2 * n + 1), (create n m q).tab i v * x v = x (n + i) - ∑ j ∈ Finset.range n, m i j * x j := by
    intro i hi
    rw [Finset.sum_range_succ, h0, mul_zero, add_zero, two_mul, Finset.sum_range_add]
    have e1 : ∑ v ∈ Finset.range n, (create n m q).tab i v * x v = - ∑ j ∈ Finset.range n, m i j * x j := by
      rw [← Finset.sum_neg_distrib]
      refine Finset.sum_congr rfl fun v hv => ?_
      show (if v < n then - m i v else _) * x v = _
      rw [if_pos (Finset.mem_range.1 hv)]; ring
    have e2 : ∑ v ∈ Finset.range n, (create n m q).tab i (n + v) * x (n + v) = x (n + i) := by
      rw [Finset.sum_eq_single i]
      · show (if n + i < n then _ else if n + i = i + n then (1:K) else _) * _ = _
        rw [if_neg (by omega), if_pos (by omega), one_mul]
      · intro k hk hne
        have := Finset.mem_range.1 hk
        show (if n + k < n then _ else if n + k = i + n then (1:K) else if n + k = 2 * n then -1 else 0) * _ = _
        rw [if_neg (by omega), if_neg (by omega), if_neg (by omega), zero_mul]
      · intro hh; exact absurd (Finset.mem_range.2 hi) hh
    rw [e1, e2]; ring
  constructor
  · intro h i hi; rw [← hs i hi]; exact h i hi
  · intro h i hi; rw [hs i hi]; exact h i hi

/-- The answer read from a base without the artificial variable. -/
theorem answer_spec {n : Nat} {l : Lemke K} (h : Base n l) (hart : ∀ i < n, l.ib i ≠ 2 * n) :
    ∃ x : Nat → K, (∀ i < n, (answer n l).1 i = x (n + i)) ∧ (∀ i < n, (answer n l).2 i = x i) ∧ x (2 * n) = 0 ∧ Sys n l x ∧
      (∀ i < n, x i = 0 ∨ x (n + i) = 0) ∧ ((∀ i < n, 0 ≤ l.p i) → ∀ v, 0 ≤ x v) := by
  classical
  obtain ⟨x, hx1, hx2⟩ : ∃ x : Nat → K, (∀ k < n, x (l.ib k) = l.p k) ∧ ∀ v, (∀ k < n, l.ib k ≠ v) → x v = 0 := by
    refine ⟨fun v => if hv : ∃ k, k < n ∧ l.ib k = v then l.p hv.choose else 0, ?_, ?_⟩
    · intro k hk
      have hv : ∃ k', k' < n ∧ l.ib k' = l.ib k := ⟨k, hk, rfl⟩
      beta_reduce
      rw [dif_pos hv, h.ib_inj _ hv.choose_spec.1 k hk hv.choose_spec.2]
    · intro v hv
      beta_reduce
      rw [dif_neg]
      rintro ⟨k, hk, e⟩
      exact hv k hk e
  refine ⟨x, ?_, ?_, hx2 _ hart, ?_, ?_, ?_⟩
  · have key := forUp_inv (fun i (w : Nat → K) => if n ≤ l.ib i ∧ l.ib i - n < n then set1 w (l.ib i - n) (l.p i) else w) (fun _ => 0)
      (P := fun j w => (∀ k < j, n ≤ l.ib k → l.ib k < 2 * n → w (l.ib k - n) = l.p k) ∧ ∀ v, (∀ k < j, l.ib k ≠ n + v) → w v = 0) (Nat.zero_le n)
      ⟨by intro k hk; omega, by intros; rfl⟩ (by
        rintro j w - hj ⟨h1, h2⟩
        by_cases hc : n ≤ l.ib j ∧ l.ib j - n < n
        · rw [if_pos hc]
          constructor
          · intro k hk hk1 hk2
            by_cases hkj : k = j
            · subst hkj; rw [set1_same]
            · rw [set1_ne _ _ (by intro e; exact hkj (h.ib_inj k (by omega) j hj (by omega)))]
              exact h1 k (by omega) hk1 hk2
          · intro v hv
            rw [set1_ne _ _ (by intro e; exact hv j (by omega) (by omega))]
            exact h2 v (fun k hk => hv k (by omega))
        · rw [if_neg hc]
          constructor
          · intro k hk hk1 hk2
            by_cases hkj : k = j
            · subst hkj; exact absurd ⟨hk1, by omega⟩ hc
            · exact h1 k (by omega) hk1 hk2
          · intro v hv
            exact h2 v (fun k hk => hv k (by omega)))
    intro i hi
    show (forUp 0 n _ _ : Nat → K) i = _
    by_cases hv : ∃ k < n, l.ib k = n + i
    · obtain ⟨k, hk, e⟩ := hv
      have := key.1 k hk (by omega) (by omega)
      rw [e, show n + i - n = i by omega] at this
      rw [this, ← e, hx1 k hk]
    · push Not at hv
      rw [key.2 i hv, hx2 _ hv]
  · have key := forUp_inv (fun i (w : Nat → K) => if l.ib i < n then set1 w (l.ib i) (l.p i) else w) (fun _ => 0)
      (P := fun j w => (∀ k < j, l.ib k < n → w (l.ib k) = l.p k) ∧ ∀ v, (∀ k < j, l.ib k ≠ v) → w v = 0) (Nat.zero_le n)
      ⟨by intro k hk; omega, by intros; rfl⟩ (by
        rintro j w - hj ⟨h1, h2⟩
        by_cases hc : l.ib j < n
        · rw [if_pos hc]
          constructor
          · intro k hk hk1
            by_cases hkj : k = j
            · subst hkj; rw [set1_same]
            · rw [set1_ne _ _ (by intro e; exact hkj (h.ib_inj k (by omega) j hj e))]
              exact h1 k (by omega) hk1
          · intro v hv
            rw [set1_ne _ _ (by intro e; exact hv j (by omega) e.symm)]
            exact h2 v (fun k hk => hv k (by omega))
        · rw [if_neg hc]
          constructor
          · intro k hk hk1
            by_cases hkj : k = j
            · subst hkj; exact absurd hk1 hc
            · exact h1 k (by omega) hk1
          · intro v hv
            exact h2 v (fun k hk => hv k (by omega)))
    intro i hi
    show (forUp 0 n _ _ : Nat → K) i = _
    by_cases hv : ∃ k < n, l.ib k = i
    · obtain ⟨k, hk, e⟩ := hv
      have := key.1 k hk (by omega)
      rw [e] at this
      rw [this, ← e, hx1 k hk]
    · push Not at hv
      rw [key.2 i hv, hx2 _ hv]
  · intro i hi
    have hinj : Set.InjOn l.ib (Finset.range n : Set Nat) := by
      intro a ha b hb e
      exact h.ib_inj a (by simpa using ha) b (by simpa using hb) e
    have hsub : (Finset.range n).image l.ib ⊆ Finset.range (2 * n + 1) := by
      intro v hv
      rw [Finset.mem_image] at hv
      obtain ⟨k, hk, rfl⟩ := hv
      exact Finset.mem_range.2 (h.ib_lt k (Finset.mem_range.1 hk))
    rw [← Finset.sum_subset hsub, Finset.sum_image hinj, Finset.sum_eq_single i]
    · rw [h.unit i hi i hi, if_pos rfl, one_mul, hx1 i hi]
    · intro k hk hne
      rw [h.unit i hi k (Finset.mem_range.1 hk), if_neg (Ne.symm hne), zero_mul]
    · intro hh; exact absurd (Finset.mem_range.2 hi) hh
    · intro v _ hv
      rw [hx2 v ?_, mul_zero]
      rintro k hk rfl
      exact hv (Finset.mem_image.2 ⟨k, Finset.mem_range.2 hk, rfl⟩)
  · intro i hi
    by_cases hv : ∃ k < n, l.ib k = i
    · right
      obtain ⟨k, hk, e⟩ := hv
      refine hx2 _ (fun j hj e' => h.comp j hj k hk (by omega) (by omega))
    · push Not at hv
      exact Or.inl (hx2 _ hv)
  · intro hp v
    by_cases hv : ∃ k < n, l.ib k = v
    · obtain ⟨k, hk, rfl⟩ := hv
      rw [hx1 k hk]; exact hp k hk
    · push Not at hv
      rw [hx2 _ hv]

/-- C58 in general: a success gives `w - M z = q` and complementarity, exactly; with comparisons that leave out no positive coefficient also
non-negativity. -/
theorem zLCPSolveLemke_general {tst : Tst K} (hg : tst.Good) (fuel n : Nat) (hn : 0 < n) (m : Nat → Nat → K) (q w z : Nat → K)
    (h : zLCPSolveLemke tst fuel n m q = .ok (w, z)) :
    (∀ i < n, w i - ∑ j ∈ Finset.range n, m i j * z j = q i) ∧ (∀ i < n, z i = 0 ∨ w i = 0) ∧
      ((∀ a, tst.skip a = true → a ≤ 0) → ∀ i < n, 0 ≤ z i ∧ 0 ≤ w i) := by
  have fin : ∀ l : Lemke K, Base n l → (∀ i < n, l.ib i ≠ 2 * n) → (∀ x, Sys n l x ↔ Sys n (create n m q) x) → answer n l = (w, z) →
      (∀ i < n, w i - ∑ j ∈ Finset.range n, m i j * z j = q i) ∧ (∀ i < n, z i = 0 ∨ w i = 0) ∧ ((∀ i < n, 0 ≤ l.p i) → ∀ i < n, 0 ≤ z i ∧ 0 ≤ w i) := by
    intro l hb hart hs e
    obtain ⟨x, h1, h2, h3, h4, h5, h6⟩ := answer_spec hb hart
    rw [e] at h1 h2
    dsimp only at h1 h2
    have hsys := (create_sys n m q x h3).1 ((hs x).1 h4)
    refine ⟨?_, ?_, ?_⟩
    · intro i hi
      rw [h1 i hi, Finset.sum_congr rfl fun j hj => by rw [h2 j (Finset.mem_range.1 hj)]]
      exact hsys i hi
    · intro i hi
      rw [h1 i hi, h2 i hi]; exact h5 i hi
    · intro hp i hi
      rw [h1 i hi, h2 i hi]; exact ⟨h6 hp _, h6 hp _⟩
  obtain ⟨hc, hf⟩ := create_core n m q
  unfold zLCPSolveLemke init at h
  dsimp only at h
  have hmin := Stat.zDataMin_spec (create n m q).p n hn
  generalize Stat.zDataMin (create n m q).p n = mn at h hmin
  obtain ⟨m1, m2, m3, -⟩ := hmin
  by_cases hq : mn.1 ≥ 0
  · rw [if_pos hq] at h
    simp only [Res.ok.injEq] at h
    obtain ⟨a1, a2, a3⟩ := fin _ ⟨hc.ib_lt, hc.ib_inj, hc.unit, hc.comp⟩ (by intro i hi; show n + i ≠ 2 * n; omega) (fun _ => Iff.rfl) h
    exact ⟨a1, a2, fun _ => a3 (fun i hi => hq.le.trans (m3 i hi))⟩
  · rw [if_neg hq] at h
    have hact : ∀ i < n, (create n m q).tab i (create n m q).act = -1 := by
      intro i hi
      show (if 2 * n < n then _ else if 2 * n = i + n then (1:K) else if 2 * n = 2 * n then -1 else 0) = _
      rw [if_neg (by omega), if_neg (by omega), if_pos rfl]
    obtain ⟨l1, e1, hb, hs, hib, hd, hcf, hpv⟩ := step_spec hc hf m1 (by rw [hact _ m1]; norm_num)
    rw [e1] at h
    dsimp only at h
    obtain ⟨c1, c2⟩ := hcf (by show n + mn.2 ≠ 2 * n; omega)
    cases hr : iter tst n fuel (swap n l1 mn.2).1 with
    | fail => rw [hr] at h; simp at h
    | ub => rw [hr] at h; simp at h
    | ok l2 =>
      rw [hr] at h
      simp only [Res.ok.injEq] at h
      obtain ⟨i1, i2, i3, i4⟩ := iter_spec hg fuel c1 c2 hr
      obtain ⟨a1, a2, a3⟩ := fin l2 i1 i2 (fun x => (i3 x).trans (hs x)) h
      refine ⟨a1, a2, fun hsk => a3 (i4 hsk ?_)⟩
      intro i hi
      rw [hpv i hi, hact _ m1]
      push Not at hq
      have hmm : (create n m q).p mn.2 = mn.1 := m2.symm
      rw [hmm]
      split_ifs with hin
      · rw [div_neg, div_one]; linarith
      · rw [hact i hi]
        have := m3 i hi
        rw [div_neg, div_one]; linarith

/-- C58 with exact comparisons. -/
theorem zLCPSolveLemke_spec_partial (fuel n : Nat) (hn : 0 < n) (m : Nat → Nat → K) (q w z : Nat → K)
    (h : zLCPSolveLemke Tst.exact fuel n m q = .ok (w, z)) :
    (∀ i < n, w i - ∑ j ∈ Finset.range n, m i j * z j = q i) ∧ (∀ i < n, z i * w i = 0) ∧ ∀ i < n, 0 ≤ z i ∧ 0 ≤ w i := by
  obtain ⟨a, b, c⟩ := zLCPSolveLemke_general Tst.exact_good fuel n hn m q w z h
  refine ⟨a, fun i hi => ?_, c (by intro a ha; simpa [Tst.exact] using ha)⟩
  rcases b i hi with e | e <;> simp [e]

/-- C58 for the comparisons as written: the equations and complementarity. -/
theorem zLCPSolveLemke_tol_partial (tol : K) (ht : 0 < tol) (fuel n : Nat) (hn : 0 < n) (m : Nat → Nat → K) (q w z : Nat → K)
    (h : zLCPSolveLemke (Tst.code tol) fuel n m q = .ok (w, z)) :
    (∀ i < n, w i - ∑ j ∈ Finset.range n, m i j * z j = q i) ∧ (∀ i < n, z i * w i = 0) := by
  obtain ⟨a, b, -⟩ := zLCPSolveLemke_general (Tst.code_good ht) fuel n hn m q w z h
  refine ⟨a, fun i hi => ?_⟩
  rcases b i hi with e | e <;> simp [e]

/-- Two components of each part of a result. -/
def show2 (r : Res ((Nat → ℚ) × (Nat → ℚ))) : Res ((ℚ × ℚ) × ℚ × ℚ) :=
  match r with
  | .ok x => .ok ((x.1 0, x.1 1), x.2 0, x.2 1)
  | .fail => .fail
  | .ub => .ub

/-- A problem that the method solves in three turns. -/
example : show2 (zLCPSolveLemke Tst.exact 5 2 (tblM [[2, 1], [1, 2]]) (tblV [-5, -6])) = .ok ((0, 0), 4/3, 7/3) := by decide +kernel

/-- C58 is violated by the tolerance: a coefficient below it does not take part in the choice of the pivot, and `w` has the component -5. -/
theorem zLCPSolveLemke_tol_violated :
    show2 (zLCPSolveLemke (Tst.code (1/10^12)) 5 2 (tblM [[1, 0], [1 - 1/(2*10^12), 1]]) (tblV [-10^13, -10^13])) = .ok ((0, -5), 10^13, 0) := by
  decide +kernel

/-! ## Quadratic programming -/

/-- The objective `x'Qx/2 + c'x`. -/
def Obj (n : Nat) (q : Nat → Nat → K) (c x : Nat → K) : K :=
  1/2 * ∑ i ∈ Finset.range n, ∑ j ∈ Finset.range n, q i j * x i * x j + ∑ i ∈ Finset.range n, c i * x i

theorem zQuadraticValue_spec (n : Nat) (q : Nat → Nat → K) (c x : Nat → K) : zQuadraticValue n q c x = Obj n q c x := by
  unfold zQuadraticValue Obj
  have inner : ∀ i v, forUp 0 n (fun j val => val + 1/2 * q i j * x i * x j) v = v + 1/2 * ∑ j ∈ Finset.range n, q i j * x i * x j := by
    intro i v
    refine forUp_inv _ _ (P := fun k val => val = v + 1/2 * ∑ j ∈ Finset.range k, q i j * x i * x j) (Nat.zero_le n) (by simp) ?_
    rintro k val - - rfl
    rw [Finset.sum_range_succ]; ring
  refine forUp_inv _ _ (P := fun k val => val = 1/2 * ∑ i ∈ Finset.range k, ∑ j ∈ Finset.range n, q i j * x i * x j + ∑ i ∈ Finset.range k, c i * x i)
    (Nat.zero_le n) (by simp) ?_
  rintro k val - - rfl
  rw [inner, Finset.sum_range_succ, Finset.sum_range_succ]; ring

theorem qp2lcp_spec (n m : Nat) (q : Nat → Nat → K) (c : Nat → K) (a : Nat → Nat → K) (b : Nat → K) :
    (∀ i < n, ∀ j < n, (qp2lcp n m q c a b).1 i j = q i j) ∧ (∀ i < m, ∀ j < n, (qp2lcp n m q c a b).1 (n + i) j = a i j) ∧
    (∀ i < n, ∀ j < m, (qp2lcp n m q c a b).1 i (n + j) = - a j i) ∧ (∀ i < m, ∀ j < m, (qp2lcp n m q c a b).1 (n + i) (n + j) = 0) ∧
    (∀ i < n, (qp2lcp n m q c a b).2 i = c i) ∧ (∀ i < m, (qp2lcp n m q c a b).2 (n + i) = - b i) := by
  obtain ⟨lm0, hlm0⟩ : ∃ lm0 : Nat → Nat → K, lm0 = fun i j => if n ≤ i ∧ i < n + m ∧ j < n then a (i - n) j else if i < n ∧ j < n then q i j else 0 := ⟨_, rfl⟩
  have inner : ∀ i (s : Nat → Nat → K) p r, forUp 0 n (fun j lm => set2 lm j (i + n) (- a i j)) s p r = if p < n ∧ r = i + n then - a i p else s p r := by
    intro i s p r
    have := forUp_inv (fun j (lm : Nat → Nat → K) => set2 lm j (i + n) (- a i j)) s (P := fun k lm => ∀ p r, lm p r = if p < k ∧ r = i + n then - a i p else s p r)
      (Nat.zero_le n) (by intro p r; simp) (by
        intro k lm _ hk ih p r
        by_cases h : p = k ∧ r = i + n
        · obtain ⟨rfl, rfl⟩ := h; simp
        · rw [set2_ne _ _ h, ih]
          have e : (p < k + 1 ∧ r = i + n) = (p < k ∧ r = i + n) := by apply propext; constructor <;> intro <;> omega
          simp only [e]) p r
    exact this
  have h1 : ∀ p r, (qp2lcp n m q c a b).1 p r = if p < n ∧ n ≤ r ∧ r < n + m then - a (r - n) p else lm0 p r := by
    intro p r
    have := forUp_inv (fun i (lm : Nat → Nat → K) => forUp 0 n (fun j lm => set2 lm j (i + n) (- a i j)) lm) lm0 (P := fun k lm => ∀ p r,
      lm p r = if p < n ∧ n ≤ r ∧ r < n + k then - a (r - n) p else lm0 p r) (Nat.zero_le m) (by intro p r; rw [if_neg (by omega)]) (by
        intro k lm _ hk ih p r
        rw [inner, ih]
        by_cases h : p < n ∧ r = k + n
        · obtain ⟨h, rfl⟩ := h
          rw [if_pos ⟨h, rfl⟩, if_pos (by omega), show k + n - n = k by omega]
        · rw [if_neg h]
          have e : (p < n ∧ n ≤ r ∧ r < n + (k + 1)) = (p < n ∧ n ≤ r ∧ r < n + k) := by apply propext; constructor <;> intro <;> omega
          simp only [e]) p r
    rw [← this, hlm0]
    rfl
  have h2 : ∀ r, (qp2lcp n m q c a b).2 r = if n ≤ r ∧ r < n + m then - b (r - n) else if r < n then c r else 0 := by
    intro r
    have := forUp_inv (fun i (lq : Nat → K) => set1 lq (n + i) (- b i)) (fun i => if i < n then c i else 0) (P := fun k lq => ∀ r,
      lq r = if n ≤ r ∧ r < n + k then - b (r - n) else if r < n then c r else 0) (Nat.zero_le m) (by intro r; rw [if_neg (by omega)]) (by
        intro k lq _ hk ih r
        by_cases h : r = n + k
        · subst h
          rw [set1_same, if_pos (by omega), show n + k - n = k by omega]
        · rw [set1_ne _ _ h, ih]
          have e : (n ≤ r ∧ r < n + (k + 1)) = (n ≤ r ∧ r < n + k) := by apply propext; constructor <;> intro <;> omega
          simp only [e]) r
    exact this
  refine ⟨?_, ?_, ?_, ?_, ?_, ?_⟩
  · intro i hi j hj
    rw [h1, if_neg (by omega), hlm0]
    beta_reduce
    rw [if_neg (by omega), if_pos ⟨hi, hj⟩]
  · intro i hi j hj
    rw [h1, if_neg (by omega), hlm0]
    beta_reduce
    rw [if_pos (by omega), show n + i - n = i by omega]
  · intro i hi j hj
    rw [h1, if_pos (by omega), show n + j - n = j by omega]
  · intro i hi j hj
    rw [h1, if_neg (by omega), hlm0]
    beta_reduce
    rw [if_neg (by omega), if_neg (by omega)]
  · intro i hi
    rw [h2, if_neg (by omega), if_pos hi]
  · intro i hi
    rw [h2, if_pos (by omega), show n + i - n = i by omega]

/-- The conditions of Karush, Kuhn and Tucker are sufficient for a convex objective. -/
theorem kkt_sufficient (n m : Nat) (q : Nat → Nat → K) (c : Nat → K) (a : Nat → Nat → K) (b x u : Nat → K)
    (hsym : ∀ i < n, ∀ j < n, q i j = q j i) (hpsd : ∀ d : Nat → K, 0 ≤ ∑ i ∈ Finset.range n, ∑ j ∈ Finset.range n, q i j * d i * d j)
    (hgrad : ∀ i < n, 0 ≤ ∑ j ∈ Finset.range n, q i j * x j + c i - ∑ k ∈ Finset.range m, a k i * u k)
    (hcompx : ∀ i < n, x i * (∑ j ∈ Finset.range n, q i j * x j + c i - ∑ k ∈ Finset.range m, a k i * u k) = 0)
    (hu : ∀ k < m, 0 ≤ u k) (hcompu : ∀ k < m, u k * (∑ j ∈ Finset.range n, a k j * x j - b k) = 0)
    (y : Nat → K) (hy : ∀ i < n, 0 ≤ y i) (hyc : ∀ k < m, b k ≤ ∑ j ∈ Finset.range n, a k j * y j) : Obj n q c x ≤ Obj n q c y := by
  obtain ⟨g, hg⟩ : ∃ g : Nat → K, g = fun i => ∑ j ∈ Finset.range n, q i j * x j + c i - ∑ k ∈ Finset.range m, a k i * u k := ⟨_, rfl⟩
  have hcross : ∑ i ∈ Finset.range n, ∑ j ∈ Finset.range n, q i j * y i * x j = ∑ i ∈ Finset.range n, ∑ j ∈ Finset.range n, q i j * x i * y j := by
    rw [Finset.sum_comm]
    refine Finset.sum_congr rfl fun i hi => Finset.sum_congr rfl fun j hj => ?_
    rw [hsym j (Finset.mem_range.1 hj) i (Finset.mem_range.1 hi)]; ring
  have hquad := hpsd (fun i => y i - x i)
  have e1 : ∑ i ∈ Finset.range n, ∑ j ∈ Finset.range n, q i j * (y i - x i) * (y j - x j) =
      ∑ i ∈ Finset.range n, ∑ j ∈ Finset.range n, q i j * y i * y j - ∑ i ∈ Finset.range n, ∑ j ∈ Finset.range n, q i j * y i * x j -
      ∑ i ∈ Finset.range n, ∑ j ∈ Finset.range n, q i j * x i * y j + ∑ i ∈ Finset.range n, ∑ j ∈ Finset.range n, q i j * x i * x j := by
    simp only [← Finset.sum_sub_distrib, ← Finset.sum_add_distrib]
    exact Finset.sum_congr rfl fun i _ => Finset.sum_congr rfl fun j _ => by ring
  rw [e1, hcross] at hquad
  -- the gradient in the direction of y - x
  have hgy : 0 ≤ ∑ i ∈ Finset.range n, g i * y i := Finset.sum_nonneg fun i hi => mul_nonneg (by rw [hg]; exact hgrad i (Finset.mem_range.1 hi)) (hy i (Finset.mem_range.1 hi))
  have hgx : ∑ i ∈ Finset.range n, g i * x i = 0 := Finset.sum_eq_zero fun i hi => by rw [hg, mul_comm]; exact hcompx i (Finset.mem_range.1 hi)
  have hgexp : ∀ v : Nat → K, ∑ i ∈ Finset.range n, g i * v i = ∑ i ∈ Finset.range n, ∑ j ∈ Finset.range n, q i j * v i * x j + ∑ i ∈ Finset.range n, c i * v i -
      ∑ k ∈ Finset.range m, u k * ∑ j ∈ Finset.range n, a k j * v j := by
    intro v
    rw [hg]
    have e2 : ∑ k ∈ Finset.range m, u k * ∑ j ∈ Finset.range n, a k j * v j = ∑ i ∈ Finset.range n, (∑ k ∈ Finset.range m, a k i * u k) * v i := by
      simp only [Finset.mul_sum, Finset.sum_mul]
      rw [Finset.sum_comm]
      exact Finset.sum_congr rfl fun i _ => Finset.sum_congr rfl fun k _ => by ring
    rw [e2, ← Finset.sum_add_distrib, ← Finset.sum_sub_distrib]
    refine Finset.sum_congr rfl fun i _ => ?_
    beta_reduce
    rw [sub_mul, add_mul, Finset.sum_mul]
    congr 2
    exact Finset.sum_congr rfl fun j _ => by ring
  have hua : ∑ k ∈ Finset.range m, u k * b k ≤ ∑ k ∈ Finset.range m, u k * ∑ j ∈ Finset.range n, a k j * y j :=
    Finset.sum_le_sum fun k hk => mul_le_mul_of_nonneg_left (hyc k (Finset.mem_range.1 hk)) (hu k (Finset.mem_range.1 hk))
  have hux : ∑ k ∈ Finset.range m, u k * ∑ j ∈ Finset.range n, a k j * x j = ∑ k ∈ Finset.range m, u k * b k :=
    Finset.sum_congr rfl fun k hk => by have := hcompu k (Finset.mem_range.1 hk); linarith [mul_sub (u k) (∑ j ∈ Finset.range n, a k j * x j) (b k)]
  rw [hgexp] at hgy hgx
  rw [hcross] at hgy
  unfold Obj
  linarith

/-- C59: any solution of the complementarity problem that is built for a quadratic program with symmetric positive semidefinite `q` gives, in the first
`n` components of `z`, a feasible point of the program that no feasible point beats. -/
theorem qp2lcp_optimal (n m : Nat) (q : Nat → Nat → K) (c : Nat → K) (a : Nat → Nat → K) (b w z : Nat → K)
    (hsym : ∀ i < n, ∀ j < n, q i j = q j i) (hpsd : ∀ d : Nat → K, 0 ≤ ∑ i ∈ Finset.range n, ∑ j ∈ Finset.range n, q i j * d i * d j)
    (h1 : ∀ i < n + m, w i - ∑ j ∈ Finset.range (n + m), (qp2lcp n m q c a b).1 i j * z j = (qp2lcp n m q c a b).2 i)
    (h2 : ∀ i < n + m, z i * w i = 0) (h3 : ∀ i < n + m, 0 ≤ z i ∧ 0 ≤ w i) :
    (∀ i < n, 0 ≤ z i) ∧ (∀ k < m, b k ≤ ∑ j ∈ Finset.range n, a k j * z j) ∧
      ∀ y : Nat → K, (∀ i < n, 0 ≤ y i) → (∀ k < m, b k ≤ ∑ j ∈ Finset.range n, a k j * y j) → Obj n q c z ≤ Obj n q c y := by
  obtain ⟨q1, q2, q3, q4, q5, q6⟩ := qp2lcp_spec n m q c a b
  have w1 : ∀ i < n, w i = ∑ j ∈ Finset.range n, q i j * z j + c i - ∑ k ∈ Finset.range m, a k i * z (n + k) := by
    intro i hi
    have := h1 i (by omega)
    rw [Finset.sum_range_add, q5 i hi, Finset.sum_congr rfl fun j hj => by rw [q1 i hi j (Finset.mem_range.1 hj)],
      Finset.sum_congr (s₁ := Finset.range m) rfl fun j hj => by rw [q3 i hi j (Finset.mem_range.1 hj)]] at this
    simp only [neg_mul, Finset.sum_neg_distrib] at this
    linarith
  have w2 : ∀ k < m, w (n + k) = ∑ j ∈ Finset.range n, a k j * z j - b k := by
    intro k hk
    have := h1 (n + k) (by omega)
    rw [Finset.sum_range_add, q6 k hk, Finset.sum_congr rfl fun j hj => by rw [q2 k hk j (Finset.mem_range.1 hj)],
      Finset.sum_congr (s₁ := Finset.range m) rfl fun j hj => by rw [q4 k hk j (Finset.mem_range.1 hj)]] at this
    simp only [zero_mul, Finset.sum_const_zero, add_zero] at this
    linarith
  refine ⟨?_, ?_, ?_⟩
  · intro i hi; exact (h3 i (by omega)).1
  · intro k hk
    have := (h3 (n + k) (by omega)).2
    rw [w2 k hk] at this
    linarith
  · intro y hy hyc
    refine kkt_sufficient n m q c a b z (fun k => z (n + k)) hsym hpsd ?_ ?_ ?_ ?_ y hy hyc
    · intro i hi
      have := (h3 i (by omega)).2
      rw [w1 i hi] at this
      exact this
    · intro i hi
      have := h2 i (by omega)
      rw [w1 i hi] at this
      exact this
    · intro k hk; exact (h3 (n + k) (by omega)).1
    · intro k hk
      have := h2 (n + k) (by omega)
      rw [w2 k hk] at this
      exact this

/-- The solver built on Lemke's method (with exact comparisons): for a symmetric positive semidefinite `q`, the answer is feasible for `a x >= b`,
`x >= 0`, its value is reported, and no feasible point has a smaller one. -/
theorem zQPSolveLemke_spec_partial (fuel n m : Nat) (hn : 0 < n) (q : Nat → Nat → K) (c : Nat → K) (a : Nat → Nat → K) (b x : Nat → K) (v : K)
    (hsym : ∀ i < n, ∀ j < n, q i j = q j i) (hpsd : ∀ d : Nat → K, 0 ≤ ∑ i ∈ Finset.range n, ∑ j ∈ Finset.range n, q i j * d i * d j)
    (h : zQPSolveLemke Tst.exact fuel n m q c a b = .ok (x, v)) :
    (∀ i < n, 0 ≤ x i) ∧ (∀ k < m, b k ≤ ∑ j ∈ Finset.range n, a k j * x j) ∧ v = Obj n q c x ∧
      ∀ y : Nat → K, (∀ i < n, 0 ≤ y i) → (∀ k < m, b k ≤ ∑ j ∈ Finset.range n, a k j * y j) → v ≤ Obj n q c y := by
  unfold zQPSolveLemke at h
  dsimp only at h
  cases hl : zLCPSolveLemke Tst.exact fuel (n + m) (qp2lcp n m q c a b).1 (qp2lcp n m q c a b).2 with
  | fail => rw [hl] at h; simp at h
  | ub => rw [hl] at h; simp at h
  | ok r =>
    obtain ⟨w, z⟩ := r
    rw [hl] at h
    simp only [Res.ok.injEq, Prod.mk.injEq] at h
    obtain ⟨hx, hv⟩ := h
    rw [hx] at hv
    have hxz : ∀ i < n, x i = z i := by intro i hi; rw [← hx]; simp [hi]
    obtain ⟨h1, h2, h3⟩ := zLCPSolveLemke_spec_partial fuel (n + m) (by omega) _ _ w z hl
    obtain ⟨o1, o2, o3⟩ := qp2lcp_optimal n m q c a b w z hsym hpsd h1 h2 h3
    have hobj : Obj n q c x = Obj n q c z := by
      unfold Obj
      congr 1
      · congr 1
        refine Finset.sum_congr rfl fun i hi => Finset.sum_congr rfl fun j hj => ?_
        rw [hxz i (Finset.mem_range.1 hi), hxz j (Finset.mem_range.1 hj)]
      · exact Finset.sum_congr rfl fun i hi => by rw [hxz i (Finset.mem_range.1 hi)]
    refine ⟨fun i hi => by rw [hxz i hi]; exact o1 i hi, ?_, ?_, ?_⟩
    · intro k hk
      rw [Finset.sum_congr rfl fun j hj => by rw [hxz j (Finset.mem_range.1 hj)]]
      exact o2 k hk
    · rw [← hv, zQuadraticValue_spec]
    · intro y hy hyc
      rw [← hv, zQuadraticValue_spec, hobj]
      exact o3 y hy hyc

/-- A problem that the solver solves: (x² + y²)/2 - 2x - 3y under -x - y >= -3. -/
example : (match zQPSolveLemke Tst.exact 9 2 1 (tblM [[1, 0], [0, 1]]) (tblV [-2, -3]) (tblM [[-1, -1]]) (tblV [-3]) with
    | .ok (x, v) => decide (x 0 = 1 ∧ x 1 = 2 ∧ v = -(11/2)) | _ => false) = true := by decide +kernel

example : ∀ d : Nat → ℚ, 0 ≤ ∑ i ∈ Finset.range 2, ∑ j ∈ Finset.range 2, tblM [[1, 0], [0, 1]] i j * d i * d j := by
  intro d
  simp [Finset.sum_range_succ, tblM]
  nlinarith [mul_self_nonneg (d 0), mul_self_nonneg (d 1)]

/-! ## Conjugate gradients -/

/-- The gradient of the objective for a symmetric `q`. -/
def grad (n : Nat) (q : Nat → Nat → K) (c x : Nat → K) (i : Nat) : K := ∑ j ∈ Finset.range n, q i j * x j + c i

/-- `q` is positive definite. -/
def PosDef (n : Nat) (q : Nat → Nat → K) : Prop :=
  (∀ i < n, ∀ j < n, q i j = q j i) ∧
    ∀ d : Nat → K, (∃ i < n, d i ≠ 0) → 0 < ∑ i ∈ Finset.range n, ∑ j ∈ Finset.range n, q i j * d i * d j

theorem obj_line (n : Nat) (q : Nat → Nat → K) (c x d : Nat → K) (hsym : ∀ i < n, ∀ j < n, q i j = q j i) (t : K) :
    Obj n q c (fun i => x i + t * d i) = Obj n q c x + t * ∑ i ∈ Finset.range n, d i * grad n q c x i +
      t^2 / 2 * ∑ i ∈ Finset.range n, ∑ j ∈ Finset.range n, q i j * d i * d j := by
  have hcross : ∑ i ∈ Finset.range n, ∑ j ∈ Finset.range n, q i j * x i * d j = ∑ i ∈ Finset.range n, ∑ j ∈ Finset.range n, q i j * d i * x j := by
    rw [Finset.sum_comm]
    refine Finset.sum_congr rfl fun i hi => Finset.sum_congr rfl fun j hj => ?_
    rw [hsym j (Finset.mem_range.1 hj) i (Finset.mem_range.1 hi)]; ring
  have e1 : ∑ i ∈ Finset.range n, ∑ j ∈ Finset.range n, q i j * (x i + t * d i) * (x j + t * d j) =
      ∑ i ∈ Finset.range n, ∑ j ∈ Finset.range n, q i j * x i * x j + t * ∑ i ∈ Finset.range n, ∑ j ∈ Finset.range n, q i j * x i * d j +
      t * ∑ i ∈ Finset.range n, ∑ j ∈ Finset.range n, q i j * d i * x j + t^2 * ∑ i ∈ Finset.range n, ∑ j ∈ Finset.range n, q i j * d i * d j := by
    simp only [Finset.mul_sum, ← Finset.sum_add_distrib]
    exact Finset.sum_congr rfl fun i _ => Finset.sum_congr rfl fun j _ => by ring
  have e2 : ∑ i ∈ Finset.range n, c i * (x i + t * d i) = ∑ i ∈ Finset.range n, c i * x i + t * ∑ i ∈ Finset.range n, c i * d i := by
    simp only [Finset.mul_sum, ← Finset.sum_add_distrib]
    exact Finset.sum_congr rfl fun i _ => by ring
  have e3 : ∑ i ∈ Finset.range n, d i * grad n q c x i =
      ∑ i ∈ Finset.range n, ∑ j ∈ Finset.range n, q i j * d i * x j + ∑ i ∈ Finset.range n, c i * d i := by
    rw [← Finset.sum_add_distrib]
    refine Finset.sum_congr rfl fun i _ => ?_
    unfold grad
    rw [mul_add, Finset.mul_sum, mul_comm (d i) (c i)]
    congr 1
    exact Finset.sum_congr rfl fun j _ => by ring
  unfold Obj
  rw [e1, e2, e3, hcross]
  ring

/-- One turn of the loop: an exact search along a direction that is not zero. -/
theorem cgStep_spec {tol : K} (ht : 0 ≤ tol) {n : Nat} {q : Nat → Nat → K} (hq : PosDef n q) (c : Nat → K) (x g d : Nat → K)
    (hg : ∀ i < n, g i = grad n q c x i) (hd : ∃ i < n, d i ≠ 0) :
    ∃ x' g' d' f, cgStep tol n q (x, g, d) = .ok ((x', g', d'), f) ∧ (∀ i < n, g' i = grad n q c x' i) ∧ Obj n q c x' ≤ Obj n q c x ∧
      (∀ t, Obj n q c x' ≤ Obj n q c (fun i => x i + t * d i)) ∧
      (f = true → ∀ i < n, |grad n q c x' i| ≤ tol) ∧ (f = false → ∃ i < n, d' i ≠ 0) := by
  have dot : ∀ u v : Nat → K, forUp 0 n (fun i r => r + u i * v i) 0 = ∑ i ∈ Finset.range n, u i * v i := fun u v => by
    rw [forUp_add _ _ _ _ (Nat.zero_le n)]; simp
  obtain ⟨S, hS⟩ : ∃ S, S = ∑ i ∈ Finset.range n, ∑ j ∈ Finset.range n, q i j * d i * d j := ⟨_, rfl⟩
  have hSpos : 0 < S := hS ▸ hq.2 d hd
  have hdqd : ∑ i ∈ Finset.range n, d i * ∑ j ∈ Finset.range n, q i j * d j = S := by
    rw [hS]
    refine Finset.sum_congr rfl fun i _ => ?_
    rw [Finset.mul_sum]
    exact Finset.sum_congr rfl fun j _ => by ring
  obtain ⟨G, hG⟩ : ∃ G, G = ∑ i ∈ Finset.range n, d i * g i := ⟨_, rfl⟩
  have hGg : ∑ i ∈ Finset.range n, d i * grad n q c x i = G := by
    rw [hG]; exact Finset.sum_congr rfl fun i hi => by rw [hg i (Finset.mem_range.1 hi)]
  have hgrad : ∀ i < n, g i + -(G / S) * ∑ j ∈ Finset.range n, q i j * d j = grad n q c (fun i => x i + -(G / S) * d i) i := by
    intro i hi
    rw [hg i hi]
    unfold grad
    have : ∑ j ∈ Finset.range n, q i j * (x j + -(G / S) * d j) = ∑ j ∈ Finset.range n, q i j * x j + -(G / S) * ∑ j ∈ Finset.range n, q i j * d j := by
      rw [Finset.mul_sum, ← Finset.sum_add_distrib]
      exact Finset.sum_congr rfl fun j _ => by ring
    rw [this]; ring
  have hmin : ∀ t, Obj n q c (fun i => x i + -(G / S) * d i) ≤ Obj n q c (fun i => x i + t * d i) := by
    intro t
    rw [obj_line n q c x d hq.1, obj_line n q c x d hq.1, hGg, ← hS]
    have : t * G + t^2 / 2 * S - (-(G / S) * G + (-(G / S))^2 / 2 * S) = S / 2 * (t + G / S)^2 := by field_simp; ring
    nlinarith [mul_nonneg (half_pos hSpos).le (sq_nonneg (t + G / S))]
  have h0 : Obj n q c (fun i => x i + -(G / S) * d i) ≤ Obj n q c x := by
    have := hmin 0
    simpa using this
  unfold cgStep
  simp only [dot, hdqd]
  rw [if_neg hSpos.ne', ← hG]
  by_cases hc : ∀ i < n, |g i + -(G / S) * ∑ j ∈ Finset.range n, q i j * d j| ≤ tol
  · rw [if_pos hc]
    refine ⟨_, _, _, _, rfl, hgrad, h0, hmin, ?_, by simp⟩
    intro _ i hi
    rw [← hgrad i hi]
    exact hc i hi
  · rw [if_neg hc]
    refine ⟨_, _, _, _, rfl, hgrad, h0, hmin, by simp, ?_⟩
    intro _
    by_contra hall
    push Not at hall
    apply hc
    -- the new gradient is orthogonal to the direction
    obtain ⟨g', hg'⟩ : ∃ g' : Nat → K, g' = fun i => g i + -(G / S) * ∑ j ∈ Finset.range n, q i j * d j := ⟨_, rfl⟩
    have horth : ∑ i ∈ Finset.range n, g' i * d i = 0 := by
      have : ∑ i ∈ Finset.range n, g' i * d i = G + -(G / S) * S := by
        obtain ⟨r, hr⟩ : ∃ r, r = G / S := ⟨_, rfl⟩
        rw [hg', ← hr]
        rw [hG, ← hdqd, Finset.mul_sum, ← Finset.sum_add_distrib]
        exact Finset.sum_congr rfl fun i _ => by ring
      rw [this]
      field_simp
      try ring
    have hsq : ∑ i ∈ Finset.range n, g' i * g' i = 0 := by
      obtain ⟨b, hb⟩ : ∃ b, b = (∑ i ∈ Finset.range n, (g i + -(G / S) * ∑ j ∈ Finset.range n, q i j * d j) * ∑ j ∈ Finset.range n, q i j * d j) / S := ⟨_, rfl⟩
      have e : ∀ i ∈ Finset.range n, g' i * g' i = -b * (g' i * d i) := by
        intro i hi
        have := hall i (Finset.mem_range.1 hi)
        rw [← hb] at this
        have e' : g' i = - (b * d i) := by rw [hg']; linarith
        nth_rewrite 2 [e']
        ring
      rw [Finset.sum_congr rfl e, ← Finset.mul_sum, horth, mul_zero]
    intro i hi
    have hz : g' i * g' i = 0 := (Finset.sum_eq_zero_iff_of_nonneg fun i _ => mul_self_nonneg (g' i)).1 hsq i (Finset.mem_range.2 hi)
    have hz' : g' i = 0 := by simpa using hz
    rw [hg'] at hz'
    beta_reduce at hz'
    rw [hz', abs_zero]
    exact ht

theorem cgLoop_spec {tol : K} (ht : 0 ≤ tol) {n : Nat} {q : Nat → Nat → K} (hq : PosDef n q) (c : Nat → K) (k : Nat) (x g d : Nat → K)
    (hg : ∀ i < n, g i = grad n q c x i) (hd : ∃ i < n, d i ≠ 0) :
    ∃ y, cgLoop tol n q k (x, g, d) = .ok y ∧ Obj n q c y ≤ Obj n q c x := by
  induction k generalizing x g d with
  | zero => exact ⟨x, rfl, le_rfl⟩
  | succ k ih =>
    obtain ⟨x', g', d', f, e, h1, h2, -, h4, h5⟩ := cgStep_spec ht hq c x g d hg hd
    unfold cgLoop
    rw [e]
    cases f with
    | true => exact ⟨x', rfl, h2⟩
    | false =>
      obtain ⟨y, e2, hy⟩ := ih x' g' d' h1 (h5 rfl)
      exact ⟨y, e2, hy.trans h2⟩

/-- For a positive definite `q` the solver never divides by zero, and never ends at a point worse than its start.  That it ends at the minimiser
after as many turns as there are variables is not true of this code, see `zCGSolve_violated`. -/
theorem zCGSolve_descent_partial {tol : K} (ht : 0 ≤ tol) {n : Nat} {q : Nat → Nat → K} (hq : PosDef n q) (c x : Nat → K) (iter : Nat) :
    ∃ y, zCGSolve tol n q c x iter = .ok y ∧ Obj n q c y ≤ Obj n q c x ∧ ((∀ i < n, |grad n q c x i| ≤ tol) → y = x) := by
  have hg : ∀ i, forUp 0 n (fun j r => r + q i j * x j) 0 + c i = grad n q c x i := by
    intro i; rw [forUp_add _ _ _ _ (Nat.zero_le n)]; simp [grad]
  unfold zCGSolve
  simp only [hg]
  by_cases hc : ∀ i < n, |grad n q c x i| ≤ tol
  · rw [if_pos hc]; exact ⟨x, rfl, le_rfl, fun _ => rfl⟩
  · rw [if_neg hc]
    obtain ⟨y, e, hy⟩ := cgLoop_spec ht hq c iter x (fun i => grad n q c x i) (fun i => grad n q c x i) (fun _ _ => rfl) (by
      push Not at hc
      obtain ⟨i, hi, h⟩ := hc
      exact ⟨i, hi, fun e => by rw [e, abs_zero] at h; linarith⟩)
    exact ⟨y, e, hy, fun h => absurd h hc⟩

theorem posDef_diag : PosDef 2 (tblM [[1, 0], [0, 2]] : Nat → Nat → ℚ) := by
  refine ⟨by decide +kernel, ?_⟩
  rintro d ⟨i, hi, hd⟩
  simp [Finset.sum_range_succ, tblM]
  have h0 := mul_self_nonneg (d 0)
  have h1 := mul_self_nonneg (d 1)
  have hi' : i = 0 ∨ i = 1 := by omega
  rcases hi' with rfl | rfl
  · nlinarith [mul_self_pos.2 hd]
  · nlinarith [mul_self_pos.2 hd]

/-- The new direction is `g + b d` with `b = +(g, q d)/(d, q d)`: the sign of `b` is wrong, the directions are not conjugate.  For two variables two
turns do not reach the minimiser (1, 1/2) of a positive definite problem; nor do four come within 1/20. -/
theorem zCGSolve_violated : PosDef 2 (tblM [[1, 0], [0, 2]] : Nat → Nat → ℚ) ∧
    (∀ i < 2, grad 2 (tblM [[1, 0], [0, 2]]) (tblV [-1, -1]) (tblV [1, 1/2] : Nat → ℚ) i = 0) ∧
    (match zCGSolve 0 2 (tblM [[1, 0], [0, 2]]) (tblV [-1, -1]) (fun _ => (0:ℚ)) 2 with
      | .ok y => decide (y 0 = 7/9 ∧ y 1 = 4/9) | _ => false) = true ∧
    (match zCGSolve (1/1000) 2 (tblM [[1, 0], [0, 2]]) (tblV [-1, -1]) (fun _ => (0:ℚ)) 4 with
      | .ok y => decide (1/20 < |y 0 - 1|) | _ => false) = true := by
  refine ⟨posDef_diag, by decide +kernel, ?_, ?_⟩
  · decide +kernel
  · decide +kernel

end Zm.LCP
