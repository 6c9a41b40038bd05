import Verif.Model.Direct
import Mathlib.Algebra.BigOperators.Group.Multiset.Basic
import Mathlib.Algebra.Order.BigOperators.Group.Multiset
import Mathlib.Algebra.BigOperators.Group.Finset.Piecewise
import Mathlib.Algebra.Order.BigOperators.Ring.Finset
import Mathlib.Data.Multiset.Filter
import Mathlib.Algebra.Order.Field.Power
import Mathlib.Algebra.Field.Rat
import Mathlib.Algebra.Order.Ring.Rat
import Mathlib.Tactic.Linarith
import Mathlib.Tactic.Ring
import Mathlib.Tactic.FieldSimp
import Mathlib.Tactic.Positivity

set_option linter.unusedSectionVars false

/-!
# The DIRECT method keeps a tiling of the search box and finds the best point evaluated
-/

namespace Zm.Direct
open Zm
variable {K : Type*} [Field K] [LinearOrder K] [IsStrictOrderedRing K]

/-! ## Specification -/

/-- A point of the unit cube. -/
def InCube (n : Nat) (p : Nat → K) : Prop := ∀ i < n, 0 ≤ p i ∧ p i ≤ 1

/-- The closed region of a centre and numbers of trisections. -/
def Covers (n : Nat) (r : Rect K) (p : Nat → K) : Prop := ∀ i < n, |p i - r.x i| ≤ 1 / 2 / 3 ^ r.level i

/-- The interior of the region. -/
def Inside (n : Nat) (r : Rect K) (p : Nat → K) : Prop := ∀ i < n, |p i - r.x i| < 1 / 2 / 3 ^ r.level i

/-- The volume of the region. -/
def volume (n : Nat) (r : Rect K) : K := ∏ i ∈ Finset.range n, 1 / 3 ^ r.level i

/-- All regions of the lists up to `lmax`. -/
def bag (lmax : Nat) (S : RSet K) : Multiset (Rect K) := ∑ l ∈ Finset.range (lmax+1), ((S l : List (Rect K)) : Multiset (Rect K))

open Classical in
/-- The regions tile the unit cube: each holds the value of its centre and is within the cube; together they cover it;
no point is inside two of them; the volumes add up to one. -/
structure Tiling (n : Nat) (F : (Nat → K) → K) (B : Multiset (Rect K)) : Prop where
  val : ∀ r ∈ B, r.val = F r.x
  within : ∀ r ∈ B, ∀ i < n, |r.x i - 1 / 2| + 1 / 2 / 3 ^ r.level i ≤ 1 / 2
  cover : ∀ p, InCube n p → ∃ r ∈ B, Covers n r p
  disjoint : ∀ p, B.countP (fun r => Inside n r p) ≤ 1
  total : (B.map (volume n)).sum = 1

/-- A region belongs to list `l`: it has been divided `l` or `l + 1` times in each direction, and `l` times in at least
one. -/
def Level (n lmax l : Nat) (r : Rect K) : Prop :=
  (∀ i < n, (r.level i = l ∨ r.level i = l + 1) ∧ r.level i ≤ lmax) ∧ (0 < n → ∃ i < n, r.level i = l)

/-- The lists are in ascending order, and each region is in the list of its level. -/
structure Lists (n lmax : Nat) (S : RSet K) : Prop where
  sorted : ∀ l ≤ lmax, (S l).Pairwise (fun a b => a.val ≤ b.val)
  level : ∀ l ≤ lmax, ∀ r ∈ S l, Level n lmax l r

/-! ## Lists -/

theorem listInsert_perm (L : List (Rect K)) (r : Rect K) : ((listInsert L r : List (Rect K)) : Multiset (Rect K)) = r ::ₘ (L : Multiset (Rect K)) := by
  induction L with
  | nil => rfl
  | cons c cs ih =>
    unfold listInsert
    by_cases h : c.val > r.val
    · rw [if_pos h]; rfl
    · rw [if_neg h, ← Multiset.cons_coe, ih, Multiset.cons_swap]; rfl

theorem mem_listInsert (L : List (Rect K)) (r q : Rect K) : q ∈ listInsert L r ↔ q = r ∨ q ∈ L := by
  have := listInsert_perm L r
  rw [← Multiset.mem_coe, this, Multiset.mem_cons, Multiset.mem_coe]

theorem listInsert_sorted (L : List (Rect K)) (r : Rect K) (h : L.Pairwise (fun a b => a.val ≤ b.val)) :
    (listInsert L r).Pairwise (fun a b => a.val ≤ b.val) := by
  induction L with
  | nil => exact List.pairwise_singleton _ _
  | cons c cs ih =>
    obtain ⟨h1, h2⟩ := List.pairwise_cons.1 h
    unfold listInsert
    by_cases hc : c.val > r.val
    · rw [if_pos hc]
      refine List.pairwise_cons.2 ⟨?_, h⟩
      intro q hq
      rcases List.mem_cons.1 hq with rfl | hq
      · exact hc.le
      · exact hc.le.trans (h1 q hq)
    · rw [if_neg hc]
      refine List.pairwise_cons.2 ⟨?_, ih h2⟩
      intro q hq
      rcases (mem_listInsert _ _ _).1 hq with rfl | hq
      · exact not_lt.1 hc
      · exact h1 q hq

theorem mem_bag (lmax : Nat) (S : RSet K) (r : Rect K) : r ∈ bag lmax S ↔ ∃ l ≤ lmax, r ∈ S l := by
  unfold bag
  rw [Multiset.mem_sum]
  constructor
  · rintro ⟨l, hl, h⟩; exact ⟨l, by have := Finset.mem_range.1 hl; omega, by simpa using h⟩
  · rintro ⟨l, hl, h⟩; exact ⟨l, Finset.mem_range.2 (by omega), by simpa using h⟩

theorem bag_set1 (lmax : Nat) (S : RSet K) (l : Nat) (hl : l ≤ lmax) (L : List (Rect K)) :
    bag lmax (set1 S l L) + ((S l : List (Rect K)) : Multiset (Rect K)) = bag lmax S + (L : Multiset (Rect K)) := by
  unfold bag
  have hm : l ∈ Finset.range (lmax+1) := Finset.mem_range.2 (by omega)
  rw [← Finset.add_sum_erase _ _ hm, ← Finset.add_sum_erase _ (fun l => ((S l : List (Rect K)) : Multiset (Rect K))) hm, set1_same]
  have : ∑ k ∈ (Finset.range (lmax+1)).erase l, ((set1 S l L k : List (Rect K)) : Multiset (Rect K))
      = ∑ k ∈ (Finset.range (lmax+1)).erase l, ((S k : List (Rect K)) : Multiset (Rect K)) := by
    refine Finset.sum_congr rfl ?_
    intro k hk
    rw [set1_ne _ _ (Finset.ne_of_mem_erase hk)]
  rw [this]
  abel

theorem setInsert_spec (n lmax : Nat) (S : RSet K) (l : Nat) (r : Rect K) (hl : l ≤ lmax) (hS : Lists n lmax S) (hr : Level n lmax l r) :
    ∃ T, setInsert lmax S l r = .ok T ∧ Lists n lmax T ∧ bag lmax T = r ::ₘ bag lmax S := by
  refine ⟨set1 S l (listInsert (S l) r), by unfold setInsert; rw [if_pos hl], ⟨?_, ?_⟩, ?_⟩
  · intro k hk
    by_cases h : k = l
    · rw [h, set1_same]; exact listInsert_sorted _ _ (hS.sorted l hl)
    · rw [set1_ne _ _ h]; exact hS.sorted k hk
  · intro k hk q hq
    by_cases h : k = l
    · subst h
      rw [set1_same] at hq
      rcases (mem_listInsert _ _ _).1 hq with rfl | hq
      · exact hr
      · exact hS.level k hk q hq
    · rw [set1_ne _ _ h] at hq; exact hS.level k hk q hq
  · have := bag_set1 lmax S l hl (listInsert (S l) r)
    rw [listInsert_perm] at this
    have h2 : bag lmax S + r ::ₘ ((S l : List (Rect K)) : Multiset (Rect K)) = r ::ₘ bag lmax S + ((S l : List (Rect K)) : Multiset (Rect K)) := by
      rw [Multiset.add_cons, Multiset.cons_add]
    rw [h2] at this
    exact add_right_cancel this

/-! ## Division -/

/-- Trisection of one region of a tiling in one direction. -/
theorem Tiling.split {n : Nat} {F : (Nat → K) → K} {B : Multiset (Rect K)} {r : Rect K} (h : Tiling n F (r ::ₘ B)) (i level : Nat)
    (hi : i < n) (hl : r.level i = level) :
    Tiling n F ({ r with level := set1 r.level i (level+1) } ::ₘ
      { x := set1 r.x i (r.x i - 1 / 3 ^ (level+1)), val := F (set1 r.x i (r.x i - 1 / 3 ^ (level+1))), level := set1 r.level i (level+1) } ::ₘ
      { x := set1 r.x i (r.x i + 1 / 3 ^ (level+1)), val := F (set1 r.x i (r.x i + 1 / 3 ^ (level+1))), level := set1 r.level i (level+1) } ::ₘ B) := by
  classical
  subst hl
  set d : K := 1 / 3 ^ (r.level i + 1) with hd
  have hd0 : 0 < d := by positivity
  have hw : (1 : K) / 2 / 3 ^ r.level i = 3 / 2 * d := by rw [hd, pow_succ]; field_simp
  have hw' : (1 : K) / 2 / 3 ^ (r.level i + 1) = d / 2 := by rw [hd]; field_simp
  set rp : Rect K := { x := set1 r.x i (r.x i + d), val := F (set1 r.x i (r.x i + d)), level := set1 r.level i (r.level i + 1) } with hrp
  set rn : Rect K := { x := set1 r.x i (r.x i - d), val := F (set1 r.x i (r.x i - d)), level := set1 r.level i (r.level i + 1) } with hrn
  set rc : Rect K := { r with level := set1 r.level i (r.level i + 1) } with hrc
  have hin := h.within r (Multiset.mem_cons_self _ _)
  -- coordinates other than the direction
  have xo : ∀ (j : Nat), j ≠ i → rp.x j = r.x j ∧ rn.x j = r.x j ∧ rc.x j = r.x j ∧ rp.level j = r.level j ∧ rn.level j = r.level j ∧ rc.level j = r.level j := by
    intro j hj
    simp only [hrp, hrn, hrc, set1_ne _ _ hj, and_self]
  have xi : rp.x i = r.x i + d ∧ rn.x i = r.x i - d ∧ rc.x i = r.x i ∧ rp.level i = r.level i + 1 ∧ rn.level i = r.level i + 1 ∧ rc.level i = r.level i + 1 := by
    simp only [hrp, hrn, hrc, set1_same, and_self]
  refine ⟨?_, ?_, ?_, ?_, ?_⟩
  · intro q hq
    simp only [Multiset.mem_cons] at hq
    rcases hq with rfl | rfl | rfl | hq
    · exact h.val r (Multiset.mem_cons_self _ _)
    · rfl
    · rfl
    · exact h.val q (Multiset.mem_cons_of_mem hq)
  · intro q hq j hj
    simp only [Multiset.mem_cons] at hq
    have hi' := hin i hi
    rw [hw] at hi'
    have h1 := abs_le.1 (by linarith : |r.x i - 1/2| ≤ 1/2 - 3/2*d)
    rcases hq with rfl | rfl | rfl | hq
    · by_cases hji : j = i
      · subst hji
        rw [xi.2.2.1, xi.2.2.2.2.2, hw']; linarith
      · obtain ⟨_, _, e1, _, _, e2⟩ := xo j hji
        rw [e1, e2]; exact hin j hj
    · by_cases hji : j = i
      · subst hji
        rw [xi.2.1, xi.2.2.2.2.1, hw']
        have := abs_le.2 (⟨by linarith [h1.1], by linarith [h1.2]⟩ : -(1/2 - d/2) ≤ r.x j - d - 1/2 ∧ r.x j - d - 1/2 ≤ 1/2 - d/2)
        linarith
      · obtain ⟨_, e1, _, _, e2, _⟩ := xo j hji
        rw [e1, e2]; exact hin j hj
    · by_cases hji : j = i
      · subst hji
        rw [xi.1, xi.2.2.2.1, hw']
        have := abs_le.2 (⟨by linarith [h1.1], by linarith [h1.2]⟩ : -(1/2 - d/2) ≤ r.x j + d - 1/2 ∧ r.x j + d - 1/2 ≤ 1/2 - d/2)
        linarith
      · obtain ⟨e1, _, _, e2, _, _⟩ := xo j hji
        rw [e1, e2]; exact hin j hj
    · exact h.within q (Multiset.mem_cons_of_mem hq) j hj
  · intro p hp
    obtain ⟨q, hq, hc⟩ := h.cover p hp
    rcases Multiset.mem_cons.1 hq with rfl | hq
    · have hci := hc i hi
      rw [hw] at hci
      obtain ⟨c1, c2⟩ := abs_le.1 hci
      by_cases hlow : p i - q.x i < -(d/2)
      · refine ⟨rn, by simp, ?_⟩
        intro j hj
        by_cases hji : j = i
        · subst hji
          rw [xi.2.1, xi.2.2.2.2.1, hw']
          exact abs_le.2 ⟨by linarith, by linarith⟩
        · obtain ⟨_, e1, _, _, e2, _⟩ := xo j hji
          rw [e1, e2]; exact hc j hj
      · by_cases hhigh : d/2 < p i - q.x i
        · refine ⟨rp, by simp, ?_⟩
          intro j hj
          by_cases hji : j = i
          · subst hji
            rw [xi.1, xi.2.2.2.1, hw']
            exact abs_le.2 ⟨by linarith, by linarith⟩
          · obtain ⟨e1, _, _, e2, _, _⟩ := xo j hji
            rw [e1, e2]; exact hc j hj
        · refine ⟨rc, by simp, ?_⟩
          intro j hj
          by_cases hji : j = i
          · subst hji
            rw [xi.2.2.1, xi.2.2.2.2.2, hw']
            exact abs_le.2 ⟨by linarith, by linarith⟩
          · obtain ⟨_, _, e1, _, _, e2⟩ := xo j hji
            rw [e1, e2]; exact hc j hj
    · exact ⟨q, by simp [hq], hc⟩
  · intro p
    have hB := h.disjoint p
    rw [Multiset.countP_cons] at hB
    simp only [Multiset.countP_cons]
    have hsub : ∀ (q : Rect K) (e : K), q = rc ∧ e = 0 ∨ q = rn ∧ e = -d ∨ q = rp ∧ e = d → Inside n q p → Inside n r p ∧ |p i - r.x i - e| < d/2 := by
      intro q e hq hins
      have key : (∀ j, j ≠ i → q.x j = r.x j ∧ q.level j = r.level j) ∧ q.x i = r.x i + e ∧ q.level i = r.level i + 1 ∧ |e| ≤ d := by
        rcases hq with ⟨rfl, rfl⟩ | ⟨rfl, rfl⟩ | ⟨rfl, rfl⟩
        · exact ⟨fun j hj => ⟨(xo j hj).2.2.1, (xo j hj).2.2.2.2.2⟩, by rw [xi.2.2.1, add_zero], xi.2.2.2.2.2, by rw [abs_zero]; exact hd0.le⟩
        · exact ⟨fun j hj => ⟨(xo j hj).2.1, (xo j hj).2.2.2.2.1⟩, by rw [xi.2.1, sub_eq_add_neg], xi.2.2.2.2.1, by rw [abs_neg, abs_of_pos hd0]⟩
        · exact ⟨fun j hj => ⟨(xo j hj).1, (xo j hj).2.2.2.1⟩, xi.1, xi.2.2.2.1, by rw [abs_of_pos hd0]⟩
      obtain ⟨k1, k2, k3, k4⟩ := key
      have hii := hins i hi
      rw [k2, k3, hw'] at hii
      have hii' : |p i - r.x i - e| < d/2 := by rw [sub_sub]; exact hii
      refine ⟨?_, hii'⟩
      intro j hj
      by_cases hji : j = i
      · subst hji
        rw [hw]
        have a1 := abs_lt.1 hii'
        have a2 := abs_le.1 k4
        exact abs_lt.2 ⟨by linarith [a1.1, a2.1], by linarith [a1.2, a2.2]⟩
      · have := hins j hj
        rw [(k1 j hji).1, (k1 j hji).2] at this
        exact this
    have hc := hsub rc 0 (Or.inl ⟨rfl, rfl⟩)
    have hn := hsub rn (-d) (Or.inr (Or.inl ⟨rfl, rfl⟩))
    have hp := hsub rp d (Or.inr (Or.inr ⟨rfl, rfl⟩))
    by_cases hr : Inside n r p
    · rw [if_pos hr] at hB
      by_cases h1 : Inside n rc p
      · have b1 := abs_lt.1 (hc h1).2
        have : ¬ Inside n rn p := by
          intro h2
          have b2 := abs_lt.1 (hn h2).2
          linarith [b1.1, b2.2]
        rw [if_neg this]
        have : ¬ Inside n rp p := by
          intro h2
          have b2 := abs_lt.1 (hp h2).2
          linarith [b1.2, b2.1]
        rw [if_neg this, if_pos h1]; omega
      · rw [if_neg h1]
        by_cases h2 : Inside n rn p
        · have b1 := abs_lt.1 (hn h2).2
          have : ¬ Inside n rp p := by
            intro h3
            have b2 := abs_lt.1 (hp h3).2
            linarith [b1.2, b2.1]
          rw [if_neg this, if_pos h2]; omega
        · rw [if_neg h2]
          split <;> omega
    · rw [if_neg (fun h => hr (hc h).1), if_neg (fun h => hr (hn h).1), if_neg (fun h => hr (hp h).1)]
      rw [if_neg hr] at hB
      omega
  · have ht := h.total
    rw [Multiset.map_cons, Multiset.sum_cons] at ht
    simp only [Multiset.map_cons, Multiset.sum_cons]
    have hv : ∀ (q : Rect K), q.level = set1 r.level i (r.level i + 1) → volume n q = volume n r * (1/3) := by
      intro q hq
      unfold volume
      have hm : i ∈ Finset.range n := Finset.mem_range.2 hi
      rw [← Finset.mul_prod_erase _ _ hm, ← Finset.mul_prod_erase _ (fun j => (1:K) / 3 ^ r.level j) hm, hq, set1_same]
      have : ∏ k ∈ (Finset.range n).erase i, (1:K) / 3 ^ (set1 r.level i (r.level i + 1) k) = ∏ k ∈ (Finset.range n).erase i, 1 / 3 ^ r.level k := by
        refine Finset.prod_congr rfl ?_
        intro k hk
        rw [set1_ne _ _ (Finset.ne_of_mem_erase hk)]
      rw [this, pow_succ]
      field_simp
    rw [hv rc rfl, hv rn rfl, hv rp rfl]
    linarith

/-- A pattern of division of a region: a direction and the neighbours of the centre in it. -/
def IsPattern (n : Nat) (F : (Nat → K) → K) (level : Nat) (x : Nat → K) (p : Nat × Rect K × Rect K) : Prop :=
  p.1 < n ∧ p.2.1.x = set1 x p.1 (x p.1 + 1 / 3 ^ (level+1)) ∧ p.2.1.val = F p.2.1.x ∧
  p.2.2.x = set1 x p.1 (x p.1 - 1 / 3 ^ (level+1)) ∧ p.2.2.val = F p.2.2.x

theorem divideLoop_spec (n lmax : Nat) (F : (Nat → K) → K) (level : Nat) (hlev : level < lmax) (W : Multiset (Rect K)) :
    ∀ (ps : List (Nat × Rect K × Rect K)) (target : Nat) (S : RSet K) (r : Rect K),
      (ps.map (fun p => p.1)).Nodup → (∀ p ∈ ps, IsPattern n F level r.x p) →
      (∀ i < n, (i ∈ ps.map (fun p => p.1) → r.level i = level) ∧ (i ∉ ps.map (fun p => p.1) → r.level i = level + 1)) →
      (ps ≠ [] → target = level) → (ps = [] → target ≤ lmax ∧ Level n lmax target r) →
      Lists n lmax S → Tiling n F (r ::ₘ (bag lmax S + W)) →
      ∃ T, divideLoop lmax level ps target S r = .ok T ∧ Lists n lmax T ∧ Tiling n F (bag lmax T + W) ∧
        (bag lmax T).map (fun r => r.x) = (r.x ::ₘ (bag lmax S).map (fun r => r.x)) + (points ps : Multiset (Nat → K)) := by
  intro ps
  induction ps with
  | nil =>
    intro target S r _ _ _ _ hnil hS hT
    obtain ⟨ht, hl⟩ := hnil rfl
    obtain ⟨T, e, hL, hb⟩ := setInsert_spec n lmax S target r ht hS hl
    refine ⟨T, e, hL, by rw [hb, Multiset.cons_add]; exact hT, ?_⟩
    rw [hb, Multiset.map_cons]; simp [points]
  | cons p ps ih =>
    intro target S r hnd hpat hlv hne _ hS hT
    have htar := hne (by simp)
    subst htar
    rw [List.map_cons, List.nodup_cons] at hnd
    obtain ⟨hp1, hx1, hv1, hx2, hv2⟩ := hpat p (List.mem_cons_self)
    have hrl : r.level p.1 = target := (hlv p.1 hp1).1 (by simp)
    set lv := set1 r.level p.1 (target+1) with hlvd
    set at_ := if ps.isEmpty then target + 1 else target with hat
    have hatle : at_ ≤ lmax := by rw [hat]; split <;> omega
    -- levels of the parts
    have hlv' : ∀ i < n, (i ∈ ps.map (fun p => p.1) → lv i = target) ∧ (i ∉ ps.map (fun p => p.1) → lv i = target + 1) := by
      intro i hi
      by_cases h : i = p.1
      · subst h
        exact ⟨fun hm => absurd hm hnd.1, fun _ => by rw [hlvd, set1_same]⟩
      · rw [hlvd, set1_ne _ _ h]
        refine ⟨fun hm => (hlv i hi).1 (by rw [List.map_cons]; exact List.mem_cons_of_mem _ hm), fun hm => (hlv i hi).2 ?_⟩
        rw [List.map_cons, List.mem_cons]
        rintro (h' | h')
        · exact h h'
        · exact hm h'
    have hL : ∀ (q : Rect K), q.level = lv → Level n lmax at_ q := by
      intro q hq
      cases hps : ps with
      | nil =>
        have hate : at_ = target + 1 := by rw [hat, hps]; rfl
        have hall : ∀ i < n, lv i = target + 1 := fun i hi => (hlv' i hi).2 (by rw [hps]; simp)
        refine ⟨?_, ?_⟩
        · intro i hi; rw [hq, hall i hi, hate]; exact ⟨Or.inl rfl, by omega⟩
        · intro _; exact ⟨p.1, hp1, by rw [hq, hall p.1 hp1, hate]⟩
      | cons p2 ps2 =>
        have hate : at_ = target := by rw [hat, hps]; rfl
        have hm2 : p2.1 ∈ ps.map (fun p => p.1) := by rw [hps]; simp
        have hp2 : p2.1 < n := (hpat p2 (by rw [hps]; simp)).1
        refine ⟨?_, ?_⟩
        · intro i hi
          rw [hq, hate]
          by_cases hm : i ∈ ps.map (fun p => p.1)
          · rw [(hlv' i hi).1 hm]; exact ⟨Or.inl rfl, by omega⟩
          · rw [(hlv' i hi).2 hm]; exact ⟨Or.inr rfl, by omega⟩
        · intro _; exact ⟨p2.1, hp2, by rw [hq, hate, (hlv' p2.1 hp2).1 hm2]⟩
    obtain ⟨S1, e1, hS1, hb1⟩ := setInsert_spec n lmax S at_ { p.2.1 with level := lv } hatle hS (hL _ rfl)
    obtain ⟨S2, e2, hS2, hb2⟩ := setInsert_spec n lmax S1 at_ { p.2.2 with level := lv } hatle hS1 (hL _ rfl)
    have hsplit := hT.split p.1 target hp1 hrl
    have hT2 : Tiling n F ({ r with level := lv } ::ₘ (bag lmax S2 + W)) := by
      rw [hb2, hb1, Multiset.cons_add, Multiset.cons_add]
      have q1 : ({ p.2.1 with level := lv } : Rect K) = { x := set1 r.x p.1 (r.x p.1 + 1 / 3 ^ (target+1)), val := F (set1 r.x p.1 (r.x p.1 + 1 / 3 ^ (target+1))), level := lv } := by
        rw [← hx1, ← hv1]
      have q2 : ({ p.2.2 with level := lv } : Rect K) = { x := set1 r.x p.1 (r.x p.1 - 1 / 3 ^ (target+1)), val := F (set1 r.x p.1 (r.x p.1 - 1 / 3 ^ (target+1))), level := lv } := by
        rw [← hx2, ← hv2]
      rw [q1, q2]
      exact hsplit
    obtain ⟨T, eT, hTL, hTT, hTx⟩ := ih at_ S2 { r with level := lv } hnd.2 (fun q hq => hpat q (List.mem_cons_of_mem _ hq)) hlv'
      (by intro h; rw [hat]; cases ps with
          | nil => exact absurd rfl h
          | cons a b => rfl)
      (by intro h; exact ⟨hatle, hL _ rfl⟩) hS2 hT2
    refine ⟨T, ?_, hTL, hTT, ?_⟩
    · unfold divideLoop
      dsimp only
      rw [← hlvd, ← hat]
      rw [e1]; dsimp only [Res.bind]
      rw [e2]; dsimp only [Res.bind]
      exact eT
    · rw [hTx, hb2, hb1]
      simp only [points, List.flatMap_cons, Multiset.map_cons]
      rw [← Multiset.coe_add]
      have : (([p.2.1.x, p.2.2.x] : List (Nat → K)) : Multiset (Nat → K)) = {p.2.1.x} + {p.2.2.x} := rfl
      rw [this]
      simp only [← Multiset.singleton_add]
      abel

theorem mem_patInsert (L : List (Nat × Rect K × Rect K)) (p : Nat × Rect K × Rect K) :
    ((patInsert L p : List _) : Multiset (Nat × Rect K × Rect K)) = p ::ₘ (L : Multiset _) := by
  induction L with
  | nil => rfl
  | cons c cs ih =>
    unfold patInsert
    by_cases h : patW c > patW p
    · rw [if_pos h]; rfl
    · rw [if_neg h, ← Multiset.cons_coe, ih, Multiset.cons_swap]; rfl

theorem patterns_spec (n : Nat) (F : (Nat → K) → K) (level : Nat) (r : Rect K) :
    ((patterns n F level r).map (fun p => p.1)).Nodup ∧ (∀ p ∈ patterns n F level r, IsPattern n F level r.x p) ∧
    (∀ i, i ∈ (patterns n F level r).map (fun p => p.1) ↔ i < n ∧ r.level i = level) := by
  have := forUp_inv (lo := 0) (hi := n) (patStep F level r) [] (fun k ps =>
      (ps.map (fun p => p.1)).Nodup ∧ (∀ p ∈ ps, IsPattern k F level r.x p) ∧ (∀ i, i ∈ ps.map (fun p => p.1) ↔ i < k ∧ r.level i = level))
    (Nat.zero_le n) (by simp)
    (by
      rintro k ps _ hk ⟨h1, h2, h3⟩
      have mono : ∀ p, IsPattern k F level r.x p → IsPattern (k+1) F level r.x p := fun p hp => ⟨Nat.lt_succ_of_lt hp.1, hp.2⟩
      unfold patStep
      by_cases h : r.level k ≠ level
      · rw [if_pos h]
        refine ⟨h1, fun p hp => mono p (h2 p hp), fun i => ?_⟩
        rw [h3 i]
        constructor
        · rintro ⟨a, b⟩; exact ⟨by omega, b⟩
        · rintro ⟨a, b⟩
          refine ⟨?_, b⟩
          rcases Nat.lt_or_ge i k with hh | hh
          · exact hh
          · exfalso; exact h (by rwa [show k = i by omega])
      · rw [if_neg h]
        have hpm := mem_patInsert ps (patCreate F level r k)
        have hperm : (patInsert ps (patCreate F level r k)).Perm (patCreate F level r k :: ps) := Multiset.coe_eq_coe.1 hpm
        have hmp := hperm.map (fun p => p.1)
        have hfst : (patCreate F level r k).1 = k := rfl
        refine ⟨?_, ?_, ?_⟩
        · rw [hmp.nodup_iff, List.map_cons, List.nodup_cons]
          refine ⟨?_, h1⟩
          rw [h3]; rintro ⟨a, _⟩; rw [hfst] at a; omega
        · intro p hp
          rcases List.mem_cons.1 (hperm.mem_iff.1 hp) with rfl | hp
          · exact ⟨Nat.lt_succ_self k, rfl, rfl, rfl, rfl⟩
          · exact mono p (h2 p hp)
        · intro i
          rw [hmp.mem_iff, List.map_cons, List.mem_cons, h3, hfst]
          constructor
          · rintro (rfl | ⟨a, b⟩)
            · exact ⟨by omega, not_not.1 h⟩
            · exact ⟨by omega, b⟩
          · rintro ⟨a, b⟩
            by_cases hik : i = k
            · exact Or.inl hik
            · exact Or.inr ⟨by omega, b⟩)
  exact this

/-- The smaller of the values at the two neighbours of the centre in a direction. -/
def least (F : (Nat → K) → K) (level : Nat) (x : Nat → K) (i : Nat) : K :=
  min (F (set1 x i (x i + 1 / 3 ^ (level+1)))) (F (set1 x i (x i - 1 / 3 ^ (level+1))))

/-- The directions are divided in ascending order of the smaller of the values found there, so that the best values get the
largest regions. -/
theorem patterns_sorted (n : Nat) (F : (Nat → K) → K) (level : Nat) (r : Rect K) :
    ((patterns n F level r).map (fun p => least F level r.x p.1)).Pairwise (· ≤ ·) := by
  have hw : ∀ p, IsPattern n F level r.x p → least F level r.x p.1 = patW p := by
    rintro p ⟨_, h1, h2, h3, h4⟩
    unfold least patW
    rw [h2, h4, h1, h3]
    by_cases h : F (set1 r.x p.1 (r.x p.1 + 1 / 3 ^ (level+1))) < F (set1 r.x p.1 (r.x p.1 - 1 / 3 ^ (level+1)))
    · rw [if_pos h, min_eq_left h.le]
    · rw [if_neg h, min_eq_right (not_lt.1 h)]
  have hs : (patterns n F level r).Pairwise (fun a b => patW a ≤ patW b) := by
    have := forUp_inv (lo := 0) (hi := n) (patStep F level r) [] (fun _ ps => ps.Pairwise (fun a b => patW a ≤ patW b)) (Nat.zero_le n) List.Pairwise.nil
      (by
        intro k ps _ _ h
        unfold patStep
        split
        · exact h
        · generalize patCreate F level r k = p
          clear hw
          induction ps with
          | nil => exact List.pairwise_singleton _ _
          | cons c cs ih =>
            obtain ⟨h1, h2⟩ := List.pairwise_cons.1 h
            unfold patInsert
            by_cases hc : patW c > patW p
            · rw [if_pos hc]
              refine List.pairwise_cons.2 ⟨?_, h⟩
              intro q hq
              rcases List.mem_cons.1 hq with rfl | hq
              · exact hc.le
              · exact hc.le.trans (h1 q hq)
            · rw [if_neg hc]
              refine List.pairwise_cons.2 ⟨?_, ih h2⟩
              intro q hq
              have := mem_patInsert cs p
              rw [← Multiset.mem_coe, this, Multiset.mem_cons, Multiset.mem_coe] at hq
              rcases hq with rfl | hq
              · exact not_lt.1 hc
              · exact h1 q hq)
    exact this
  have hp := (patterns_spec n F level r).2.1
  rw [List.pairwise_map]
  refine List.Pairwise.imp_of_mem ?_ hs
  intro a b ha hb hab
  rw [hw a (hp a ha), hw b (hp b hb)]
  exact hab

/-- Division of one region taken from its list, while the regions `W` are also out of the lists. -/
theorem rectDivide_rest (n lmax : Nat) (F : (Nat → K) → K) (level : Nat) (hlev : level < lmax) (S : RSet K) (r : Rect K) (W : Multiset (Rect K))
    (hS : Lists n lmax S) (hr : Level n lmax level r) (hT : Tiling n F (r ::ₘ (bag lmax S + W))) :
    ∃ T, rectDivide lmax n F level S r = .ok T ∧ Lists n lmax T ∧ Tiling n F (bag lmax T + W) ∧
      (bag lmax T).map (fun r => r.x) = (r.x ::ₘ (bag lmax S).map (fun r => r.x)) + (points (patterns n F level r) : Multiset (Nat → K)) ∧
      (0 < n → patterns n F level r ≠ []) := by
  obtain ⟨h1, h2, h3⟩ := patterns_spec n F level r
  have hne : 0 < n → patterns n F level r ≠ [] := by
    intro hn he
    obtain ⟨i, hi, hl⟩ := hr.2 hn
    have := (h3 i).2 ⟨hi, hl⟩
    rw [he] at this
    simp at this
  obtain ⟨T, e, a, b, c⟩ := divideLoop_spec n lmax F level hlev W (patterns n F level r) level S r h1 h2
    (by
      intro i hi
      refine ⟨fun hm => ((h3 i).1 hm).2, fun hm => ?_⟩
      rcases (hr.1 i hi).1 with h | h
      · exact absurd ((h3 i).2 ⟨hi, h⟩) hm
      · exact h)
    (fun _ => rfl) (fun _ => ⟨hlev.le, hr⟩) hS hT
  exact ⟨T, e, a, b, c, hne⟩

/-! ## The least value -/

theorem firstNonempty_spec (S : RSet K) : ∀ (k i : Nat), (∃ l, i ≤ l ∧ l < i + k ∧ S l ≠ []) →
    ∃ j, firstNonempty S k i = .ok j ∧ i ≤ j ∧ j < i + k ∧ S j ≠ [] ∧ ∀ l, i ≤ l → l < j → S l = [] := by
  intro k
  induction k with
  | zero => rintro i ⟨l, h1, h2, _⟩; omega
  | succ k ih =>
    rintro i ⟨l, h1, h2, h3⟩
    unfold firstNonempty
    by_cases he : (S i).isEmpty
    · rw [if_pos he]
      have he' : S i = [] := List.isEmpty_iff.1 he
      have hli : l ≠ i := by rintro rfl; exact h3 he'
      obtain ⟨j, e, a, b, c, d⟩ := ih (i+1) ⟨l, by omega, by omega, h3⟩
      refine ⟨j, e, by omega, by omega, c, ?_⟩
      intro q h4 h5
      by_cases hqi : q = i
      · rw [hqi]; exact he'
      · exact d q (by omega) h5
    · rw [if_neg he]
      refine ⟨i, rfl, le_refl _, by omega, fun h => he (by rw [h]; rfl), ?_⟩
      intro q h4 h5; omega

/-- The least of all values is found, and it is at the tail of the list of the level found. -/
theorem findMin_spec (lmax : Nat) (S : RSet K) (hs : ∀ l ≤ lmax, (S l).Pairwise (fun a b => a.val ≤ b.val)) (hne : ∃ l ≤ lmax, S l ≠ []) :
    ∃ m, findMin lmax S = .ok m ∧ m.2 ≤ lmax ∧ (∃ c cs, S m.2 = c :: cs ∧ c.val = m.1) ∧ ∀ l ≤ lmax, ∀ r ∈ S l, m.1 ≤ r.val := by
  obtain ⟨l0, hl0, hl0n⟩ := hne
  obtain ⟨i, e, _, hi, hine, hbef⟩ := firstNonempty_spec S (lmax+1) 0 ⟨l0, by omega, by omega, hl0n⟩
  unfold findMin
  rw [e]
  dsimp only [Res.bind]
  cases hSi : S i with
  | nil => exact absurd hSi hine
  | cons c0 cs0 =>
    dsimp only [tailVal]
    have := forUp_inv (lo := i) (hi := lmax+1) (findMinStep S) (c0.val, i) (fun k m =>
        m.2 ≤ lmax ∧ (∃ c cs, S m.2 = c :: cs ∧ c.val = m.1) ∧ (∀ l, l < k → l ≤ lmax → ∀ r ∈ S l, m.1 ≤ r.val))
      (by omega)
      ⟨by omega, ⟨c0, cs0, hSi, rfl⟩, by intro l hl _ r hr; rw [hbef l (by omega) hl] at hr; simp at hr⟩
      (by
        rintro k m h1 h2 ⟨a, b, c⟩
        unfold findMinStep
        cases hSk : S k with
        | nil =>
          refine ⟨a, b, ?_⟩
          intro l hl hl' r hr
          by_cases hlk : l = k
          · rw [hlk, hSk] at hr; simp at hr
          · exact c l (by omega) hl' r hr
        | cons d ds =>
          have hsk := hs k (by omega)
          rw [hSk] at hsk
          have hd : ∀ r ∈ S k, d.val ≤ r.val := by
            intro r hr
            rw [hSk] at hr
            rcases List.mem_cons.1 hr with rfl | hr
            · exact le_refl _
            · exact (List.pairwise_cons.1 hsk).1 r hr
          dsimp only
          by_cases hg : m.1 > d.val
          · rw [if_pos hg]
            refine ⟨by dsimp only; omega, ⟨d, ds, hSk, rfl⟩, ?_⟩
            intro l hl hl' r hr
            by_cases hlk : l = k
            · rw [hlk] at hr; exact hd r hr
            · exact hg.le.trans (c l (by omega) hl' r hr)
          · rw [if_neg hg]
            refine ⟨a, b, ?_⟩
            intro l hl hl' r hr
            by_cases hlk : l = k
            · rw [hlk] at hr; exact (not_lt.1 hg).trans (hd r hr)
            · exact c l (by omega) hl' r hr)
    exact ⟨_, rfl, this.1, this.2.1, fun l hl => this.2.2 l (by omega) hl⟩

/-! ## Potentially optimal regions -/

/-- `r` of list `l` is potentially optimal among the regions of lists up to `lmax`, of which those of list `k` have a
longest side of `1 / 3 ^ k`: for some rate `κ` of change of the objective no region promises a smaller value. -/
def PotOpt (lmax : Nat) (S : RSet K) (l : Nat) (r : Rect K) : Prop :=
  ∃ κ, 0 ≤ κ ∧ ∀ k ≤ lmax, ∀ q ∈ S k, r.val - κ * (1 / 3 ^ l) ≤ q.val - κ * (1 / 3 ^ k)

theorem slope_eq {i k : Nat} (h : i < k) (v w : K) : slope i k v w * (1 / 3 ^ i - 1 / 3 ^ k) = v - w := by
  unfold slope
  have e : (3:K) ^ k = 3 ^ i * 3 ^ (k - i) := by rw [← pow_add]; congr 1; omega
  have hgt : (1:K) < 3 ^ (k - i) := one_lt_pow₀ (by norm_num) (by omega)
  have h0 : (0:K) < 3 ^ (k - i) := by positivity
  have h1 : (3:K) ^ (k - i) - 1 ≠ 0 := by linarith
  have h2 : (1:K) - 1 / 3 ^ (k - i) ≠ 0 := by
    have : (1:K) - 1 / 3 ^ (k - i) = (3 ^ (k-i) - 1) / 3 ^ (k-i) := by field_simp
    rw [this]; exact div_ne_zero h1 h0.ne'
  rw [e]
  field_simp

theorem size_lt {i k : Nat} (h : i < k) : (1:K) / 3 ^ k < 1 / 3 ^ i := by
  apply one_div_lt_one_div_of_lt (by positivity)
  exact pow_lt_pow_right₀ (by norm_num) h

/-- The search for the largest slope to the levels `i+1 … ml`. -/
theorem slope_spec (S : RSet K) (i ml : Nat) (v : K) (him : i < ml) (c : Rect K) (cs : List (Rect K)) (hc : S ml = c :: cs) (hv : c.val ≤ v) :
    ∃ g j, forUp (i+1) (ml+1) (slopeStep S i v) (0, i+1) = (g, j) ∧ 0 ≤ g ∧ i < j ∧ j ≤ ml ∧
      (∃ d ds, S j = d :: ds ∧ slope i j v d.val = g) ∧
      (∀ k, i < k → k ≤ ml → ∀ d ds, S k = d :: ds → slope i k v d.val ≤ g) := by
  have := forUp_inv (lo := i+1) (hi := ml+1) (slopeStep S i v) (0, i+1) (fun k g =>
      0 ≤ g.1 ∧ ((g = (0, i+1) ∧ ∀ q, i < q → q < k → ∀ d ds, S q = d :: ds → slope i q v d.val < 0) ∨
        (i < g.2 ∧ g.2 ≤ ml ∧ (∃ d ds, S g.2 = d :: ds ∧ slope i g.2 v d.val = g.1))) ∧
      (∀ q, i < q → q < k → ∀ d ds, S q = d :: ds → slope i q v d.val ≤ g.1))
    (by omega)
    ⟨le_refl _, Or.inl ⟨rfl, by intro q h1 h2; omega⟩, by intro q h1 h2; omega⟩
    (by
      rintro k g h1 h2 ⟨a, b, e⟩
      unfold slopeStep
      cases hSk : S k with
      | nil =>
        refine ⟨a, ?_, ?_⟩
        · rcases b with ⟨b1, b2⟩ | b
          · refine Or.inl ⟨b1, ?_⟩
            intro q h3 h4 d ds hd
            by_cases hq : q = k
            · rw [hq, hSk] at hd; simp at hd
            · exact b2 q h3 (by omega) d ds hd
          · exact Or.inr b
        · intro q h3 h4 d ds hd
          by_cases hq : q = k
          · rw [hq, hSk] at hd; simp at hd
          · exact e q h3 (by omega) d ds hd
      | cons d ds =>
        dsimp only
        by_cases hg : slope i k v d.val ≥ g.1
        · rw [if_pos hg]
          refine ⟨a.trans hg, Or.inr ⟨by dsimp only; omega, by dsimp only; omega, d, ds, hSk, rfl⟩, ?_⟩
          intro q h3 h4 d' ds' hd'
          by_cases hq : q = k
          · subst hq; rw [hSk] at hd'; injection hd' with p1 p2; rw [p1]
          · exact (e q h3 (by omega) d' ds' hd').trans hg
        · rw [if_neg hg]
          have hlt := not_le.1 hg
          refine ⟨a, ?_, ?_⟩
          · rcases b with ⟨b1, b2⟩ | b
            · refine Or.inl ⟨b1, ?_⟩
              intro q h3 h4 d' ds' hd'
              by_cases hq : q = k
              · subst hq; rw [hSk] at hd'; injection hd' with p1 p2
                rw [← p1]; rw [b1] at hlt; exact hlt
              · exact b2 q h3 (by omega) d' ds' hd'
            · exact Or.inr b
          · intro q h3 h4 d' ds' hd'
            by_cases hq : q = k
            · subst hq; rw [hSk] at hd'; injection hd' with p1 p2; rw [← p1]; exact hlt.le
            · exact e q h3 (by omega) d' ds' hd')
  obtain ⟨a, b, e⟩ := this
  set g := forUp (i+1) (ml+1) (slopeStep S i v) (0, i+1) with hg
  rcases b with ⟨b1, b2⟩ | ⟨b1, b2, b3⟩
  · exfalso
    have h1 := b2 ml him (by omega) c cs hc
    have h2 := slope_eq him v c.val
    have h3 : (0:K) < 1 / 3 ^ i - 1 / 3 ^ ml := sub_pos.2 (size_lt him)
    have : slope i ml v c.val * (1 / 3 ^ i - 1 / 3 ^ ml) < 0 := mul_neg_of_neg_of_pos h1 h3
    linarith
  · exact ⟨g.1, g.2, rfl, a, b1, b2, b3, fun k h1 h2 => e k h1 (by omega)⟩

/-- The region taken from a list. -/
def one : Option (Rect K) → Multiset (Rect K)
  | none => 0
  | some r => {r}

/-- The regions taken, as a multiset. -/
def taken (lo hi : Nat) (por : Nat → Option (Rect K)) : Multiset (Rect K) := ∑ l ∈ Finset.Ico lo hi, one (por l)

theorem taken_set1 (hi : Nat) (por : Nat → Option (Rect K)) (i : Nat) (r : Rect K) (h : por i = none) (hi' : i < hi) :
    taken 0 hi (set1 por i (some r)) = r ::ₘ taken 0 hi por := by
  unfold taken
  have hm : i ∈ Finset.Ico 0 hi := Finset.mem_Ico.2 ⟨Nat.zero_le _, hi'⟩
  rw [← Finset.add_sum_erase _ _ hm, ← Finset.add_sum_erase _ (fun l => one (por l)) hm, set1_same, h]
  have : ∑ k ∈ (Finset.Ico 0 hi).erase i, one (set1 por i (some r) k) = ∑ k ∈ (Finset.Ico 0 hi).erase i, one (por k) := by
    refine Finset.sum_congr rfl ?_
    intro k hk
    rw [set1_ne _ _ (Finset.ne_of_mem_erase hk)]
  rw [this]
  simp [one]

theorem identLoop_spec (lmax ml : Nat) (S0 : RSet K) (m : K) (hml : ml < lmax) (hs : ∀ l ≤ lmax, (S0 l).Pairwise (fun a b => a.val ≤ b.val))
    (cm : Rect K) (csm : List (Rect K)) (hcm : S0 ml = cm :: csm) (hmin : ∀ l ≤ lmax, ∀ r ∈ S0 l, cm.val ≤ r.val) :
    ∀ (k i : Nat) (S : RSet K) (por : Nat → Option (Rect K)),
      i ≤ ml → ml < i + k → (∀ l, i ≤ l → S l = S0 l) → S0 i ≠ [] → (∀ l, i ≤ l → por l = none) →
      ((∀ l < i, S0 l = []) ∨ ∃ κ, ∀ c cs, S0 i = c :: cs → ∀ l ≤ lmax, ∀ q ∈ S0 l, c.val - κ * (1 / 3 ^ i) ≤ q.val - κ * (1 / 3 ^ l)) →
      (∀ l r, por l = some r → l < ml ∧ (∃ rs, S0 l = r :: rs) ∧ PotOpt lmax S0 l r) →
      (∀ l, S l = S0 l ∨ ∃ r, S0 l = r :: S l) →
      ∃ T q, identLoop S por ml k i = .ok (T, q) ∧ bag lmax T + taken 0 lmax q = bag lmax S + taken 0 lmax por ∧
        (∀ l r, q l = some r → l ≤ ml ∧ (∃ rs, S0 l = r :: rs) ∧ PotOpt lmax S0 l r) ∧
        (∀ l, T l = S0 l ∨ ∃ r, S0 l = r :: T l) ∧ q ml = some cm ∧ (∃ r, q i = some r) ∧ (∀ l r, por l = some r → q l = some r) := by
  intro k
  induction k with
  | zero => intro i S por h1 h2; omega
  | succ k ih =>
    intro i S por him hk hagree hne hnone hline hpor hST
    unfold identLoop
    have hSi := hagree i (le_refl _)
    cases hc : S i with
    | nil => rw [hc] at hSi; exact absurd hSi.symm hne
    | cons c cs =>
      have hS0i : S0 i = c :: cs := by rw [← hSi, hc]
      dsimp only
      have hbag : bag lmax (set1 S i cs) + taken 0 lmax (set1 por i (some c)) = bag lmax S + taken 0 lmax por := by
        rw [taken_set1 lmax por i c (hnone i (le_refl _)) (by omega)]
        have := bag_set1 lmax S i (by omega) cs
        rw [hc, ← Multiset.cons_coe, Multiset.add_cons] at this
        have h2 : (c ::ₘ bag lmax (set1 S i cs)) + (cs : Multiset (Rect K)) = bag lmax S + cs := by rw [Multiset.cons_add]; exact this
        have h3 := add_right_cancel h2
        rw [Multiset.add_cons, ← Multiset.cons_add, h3]
      have hST' : ∀ l, set1 S i cs l = S0 l ∨ ∃ r, S0 l = r :: set1 S i cs l := by
        intro l
        by_cases h : l = i
        · subst h; rw [set1_same]; exact Or.inr ⟨c, hS0i⟩
        · rw [set1_ne _ _ h]; exact hST l
      by_cases hi : i = ml
      · rw [if_pos hi]
        subst hi
        have hcc : c = cm := by rw [hS0i] at hcm; injection hcm
        refine ⟨_, _, rfl, hbag, ?_, hST', by rw [set1_same, hcc], ⟨c, set1_same _ _ _⟩, ?_⟩
        · intro l r hr
          by_cases h : l = i
          · subst h
            rw [set1_same] at hr
            injection hr with hr
            subst hr
            refine ⟨le_refl _, ⟨cs, hS0i⟩, 0, le_refl _, ?_⟩
            intro j hj q hq
            rw [zero_mul, zero_mul, sub_zero, sub_zero, hcc]
            exact hmin j hj q hq
          · rw [set1_ne _ _ h] at hr
            have := hpor l r hr
            exact ⟨this.1.le, this.2⟩
        · intro l r hr
          have hlt : l ≠ i := by
            rintro rfl
            rw [hnone l (le_refl _)] at hr; simp at hr
          rw [set1_ne _ _ hlt]; exact hr
      · rw [if_neg hi]
        have hlt : i < ml := by omega
        have hcml : set1 S i cs ml = cm :: csm := by rw [set1_ne _ _ (by omega), hagree ml him, hcm]
        have hcv : cm.val ≤ c.val := hmin i (by omega) c (by rw [hS0i]; simp)
        obtain ⟨g, j, e, hg0, hij, hjm, ⟨d, ds, hd, hgd⟩, hmax⟩ := slope_spec (set1 S i cs) i ml c.val hlt cm csm hcml hcv
        have hd0 : S0 j = d :: ds := by rw [← hagree j (by omega), ← hd, set1_ne _ _ (by omega)]
        -- no value beyond the line through `c` with slope `g`
        have hright : ∀ l ≤ lmax, i < l → ∀ q ∈ S0 l, c.val - g * (1 / 3 ^ i) ≤ q.val - g * (1 / 3 ^ l) := by
          have hml' : ∀ l, i < l → l ≤ ml → ∀ q ∈ S0 l, c.val - g * (1 / 3 ^ i) ≤ q.val - g * (1 / 3 ^ l) := by
            intro l hl hlm q hq
            cases hSl : S0 l with
            | nil => rw [hSl] at hq; simp at hq
            | cons a as =>
              have ha : set1 S i cs l = a :: as := by rw [set1_ne _ _ (by omega), hagree l (by omega), hSl]
              have h1 := hmax l hl hlm a as ha
              have h2 := slope_eq hl c.val a.val
              have h3 : (0:K) < 1 / 3 ^ i - 1 / 3 ^ l := sub_pos.2 (size_lt hl)
              have h4 := mul_le_mul_of_nonneg_right h1 h3.le
              rw [h2] at h4
              have h5 : a.val ≤ q.val := by
                have := hs l (by omega)
                rw [hSl] at this hq
                rcases List.mem_cons.1 hq with rfl | hq
                · exact le_refl _
                · exact (List.pairwise_cons.1 this).1 q hq
              rw [mul_sub] at h4
              linarith
          intro l hl hil q hq
          by_cases hlm : l ≤ ml
          · exact hml' l hil hlm q hq
          · have h1 := hml' ml hlt (le_refl _) cm (by rw [hcm]; simp)
            have h2 := hmin l hl q hq
            have h3 : (1:K) / 3 ^ l ≤ 1 / 3 ^ ml := (size_lt (by omega)).le
            have h4 := mul_le_mul_of_nonneg_left h3 hg0
            linarith
        have hself : ∀ q ∈ S0 i, c.val ≤ q.val := by
          intro q hq
          have := hs i (by omega)
          rw [hS0i] at this hq
          rcases List.mem_cons.1 hq with rfl | hq
          · exact le_refl _
          · exact (List.pairwise_cons.1 this).1 q hq
        have hdline : c.val - g * (1 / 3 ^ i) = d.val - g * (1 / 3 ^ j) := by
          have := slope_eq hij c.val d.val
          rw [hgd, mul_sub] at this
          linarith
        have hall : ∀ l ≤ lmax, ∀ q ∈ S0 l, c.val - g * (1 / 3 ^ i) ≤ q.val - g * (1 / 3 ^ l) := by
          intro l hl q hq
          rcases Nat.lt_trichotomy l i with h | h | h
          · rcases hline with hfirst | ⟨κ, hκ⟩
            · rw [hfirst l h] at hq; simp at hq
            · have hκ' := hκ c cs hS0i
              have h1 := hκ' l hl q hq
              have h2 := hκ' j (by omega) d (by rw [hd0]; simp)
              -- g ≤ κ
              have h3 : (0:K) < 1 / 3 ^ i - 1 / 3 ^ j := sub_pos.2 (size_lt hij)
              have h4 : g ≤ κ := by
                have : g * (1 / 3 ^ i - 1 / 3 ^ j) ≤ κ * (1 / 3 ^ i - 1 / 3 ^ j) := by rw [mul_sub, mul_sub]; linarith
                exact le_of_mul_le_mul_right this h3
              have h5 : (0:K) < 1 / 3 ^ l - 1 / 3 ^ i := sub_pos.2 (size_lt h)
              have h6 := mul_le_mul_of_nonneg_right h4 h5.le
              rw [mul_sub, mul_sub] at h6
              linarith
          · subst h; linarith [hself q hq]
          · exact hright l hl h q hq
        rw [e]
        obtain ⟨T, q, eT, hb, hq, hT, hqm, ⟨r', hr'⟩, hkeep⟩ := ih j (set1 S i cs) (set1 por i (some c)) hjm (by omega)
          (by intro l hl; rw [set1_ne _ _ (by omega)]; exact hagree l (by omega))
          (by rw [hd0]; simp)
          (by intro l hl; rw [set1_ne _ _ (by omega)]; exact hnone l (by omega))
          (Or.inr ⟨g, by
            intro c' cs' hc'
            rw [hd0] at hc'; injection hc' with p1 p2
            subst p1
            intro l hl q hq
            rw [← hdline]; exact hall l hl q hq⟩)
          (by
            intro l r hr
            by_cases h : l = i
            · subst h
              rw [set1_same] at hr
              injection hr with hr
              subst hr
              exact ⟨hlt, ⟨cs, hS0i⟩, g, hg0, hall⟩
            · rw [set1_ne _ _ h] at hr
              exact hpor l r hr)
          hST'
        refine ⟨T, q, eT, by rw [hb, hbag], hq, hT, hqm, ⟨c, hkeep i c (set1_same _ _ _)⟩, ?_⟩
        intro l r hr
        refine hkeep l r ?_
        have : l ≠ i := by
          rintro rfl
          rw [hnone l (le_refl _)] at hr; simp at hr
        rw [set1_ne _ _ this]; exact hr

/-! ## One iteration -/

/-- What holds before and after each iteration: regions in order, a tiling, and the points evaluated are its centres. -/
structure Inv (n lmax : Nat) (F : (Nat → K) → K) (S : RSet K) (log : List (Nat → K)) : Prop where
  lists : Lists n lmax S
  tiling : Tiling n F (bag lmax S)
  log : (bag lmax S).map (fun r => r.x) = (log : Multiset (Nat → K))

theorem taken_cons {lo hi : Nat} (h : lo < hi) (por : Nat → Option (Rect K)) : taken lo hi por = one (por lo) + taken (lo+1) hi por := by
  unfold taken
  rw [Finset.sum_eq_sum_Ico_succ_bot h]

theorem points_length (ps : List (Nat × Rect K × Rect K)) : (points ps).length = 2 * ps.length := by
  unfold points
  induction ps with
  | nil => rfl
  | cons p ps ih => simp only [List.flatMap_cons, List.length_append, ih, List.length_cons, List.length_nil]; omega

theorem porDivide_spec (n lmax : Nat) (F : (Nat → K) → K) (por : Nat → Option (Rect K)) (S : RSet K) (log : List (Nat → K))
    (hpor : ∀ l r, l < lmax → por l = some r → Level n lmax l r) (hL : Lists n lmax S)
    (hT : Tiling n F (bag lmax S + taken 0 lmax por)) (hlog : (bag lmax S + taken 0 lmax por).map (fun r => r.x) = (log : Multiset (Nat → K))) :
    ∃ T log', porDivide lmax n F por (S, log) = .ok (T, log') ∧ Inv n lmax F T log' ∧
      (0 < n → (∃ l < lmax, por l ≠ none) → log.length + 2 ≤ log'.length) := by
  have main : ∃ st, forUpM 0 lmax (porStep lmax n F por) (S, log) = .ok st ∧
      (Lists n lmax st.1 ∧ Tiling n F (bag lmax st.1 + taken lmax lmax por) ∧
        (bag lmax st.1 + taken lmax lmax por).map (fun r => r.x) = (st.2 : Multiset (Nat → K)) ∧ log.length ≤ st.2.length ∧
        (0 < n → (∃ l < lmax, por l ≠ none) → log.length + 2 ≤ st.2.length)) := by
    refine forUpM_ok (lo := 0) (hi := lmax) (porStep lmax n F por) (S, log) (fun i st =>
      Lists n lmax st.1 ∧ Tiling n F (bag lmax st.1 + taken i lmax por) ∧
        (bag lmax st.1 + taken i lmax por).map (fun r => r.x) = (st.2 : Multiset (Nat → K)) ∧ log.length ≤ st.2.length ∧
        (0 < n → (∃ l < i, por l ≠ none) → log.length + 2 ≤ st.2.length)) (Nat.zero_le _)
      ⟨hL, hT, hlog, le_refl _, by rintro _ ⟨l, h, _⟩; omega⟩ ?_
    rintro i ⟨S, lg⟩ _ hi ⟨h1, h2, h3, h4, h5⟩
    dsimp only at h1 h2 h3 h4 h5
    rw [taken_cons hi] at h2 h3
    unfold porStep
    cases hp : por i with
    | none =>
      rw [hp] at h2 h3
      simp only [one, zero_add] at h2 h3
      refine ⟨_, rfl, h1, h2, h3, h4, ?_⟩
      rintro hn ⟨l, hl, hln⟩
      have : l ≠ i := by rintro rfl; exact hln hp
      exact h5 hn ⟨l, by omega, hln⟩
    | some r =>
      rw [hp] at h2 h3
      simp only [one] at h2 h3
      have hr := hpor i r hi hp
      -- the rest of the regions
      have e1 : bag lmax S + ({r} + taken (i+1) lmax por) = r ::ₘ (bag lmax S + taken (i+1) lmax por) := by
        rw [← Multiset.singleton_add]; abel
      rw [e1] at h2 h3
      obtain ⟨T, e, a, b, c, d⟩ := rectDivide_rest n lmax F i hi S r (taken (i+1) lmax por) h1 hr h2
      dsimp only
      rw [e]
      refine ⟨_, rfl, a, b, ?_, ?_, ?_⟩
      · dsimp only
        rw [Multiset.map_add, c, ← Multiset.coe_add, ← h3, Multiset.map_cons, Multiset.map_add]
        simp only [← Multiset.singleton_add]
        abel
      · dsimp only; rw [List.length_append]; omega
      · intro hn _
        have := d hn
        have hpos : 0 < (patterns n F i r).length := List.length_pos_iff.2 this
        dsimp only
        rw [List.length_append, points_length]; omega
  obtain ⟨st, e, h1, h2, h3, _, h5⟩ := main
  have h0 : taken lmax lmax por = 0 := by unfold taken; rw [Finset.Ico_self]; rfl
  rw [h0, add_zero] at h2 h3
  exact ⟨st.1, st.2, e, ⟨h1, h2, h3⟩, h5⟩

theorem Inv.nonempty {n lmax : Nat} {F : (Nat → K) → K} {S : RSet K} {log : List (Nat → K)} (h : Inv n lmax F S log) : ∃ l ≤ lmax, S l ≠ [] := by
  obtain ⟨r, hr, _⟩ := h.tiling.cover (fun _ => 0) (fun i _ => ⟨le_refl _, zero_le_one⟩)
  obtain ⟨l, hl, hm⟩ := (mem_bag lmax S r).1 hr
  exact ⟨l, hl, fun he => by rw [he] at hm; simp at hm⟩

/-- The identification of regions in an iteration: it takes only potentially optimal ones, each the best of its list, among
them a largest one and one of the least value. -/
theorem ident_spec (n lmax : Nat) (F : (Nat → K) → K) (S : RSet K) (log : List (Nat → K)) (h : Inv n lmax F S log) :
    ∃ m, findMin lmax S = .ok m ∧ m.2 ≤ lmax ∧ (∃ c cs, S m.2 = c :: cs ∧ c.val = m.1) ∧ (∀ l ≤ lmax, ∀ r ∈ S l, m.1 ≤ r.val) ∧
      (m.2 < lmax → ∃ i0 T q, firstNonempty S (lmax+1) 0 = .ok i0 ∧ identLoop S (fun _ => none) m.2 (lmax+1) i0 = .ok (T, q) ∧
        i0 ≤ lmax ∧ (∀ l < i0, S l = []) ∧ bag lmax T + taken 0 lmax q = bag lmax S ∧ (∀ l, T l = S l ∨ ∃ r, S l = r :: T l) ∧
        (∀ l r, q l = some r → l ≤ m.2 ∧ (∃ rs, S l = r :: rs) ∧ PotOpt lmax S l r) ∧ (∃ r, q i0 = some r) ∧ (∃ r, q m.2 = some r)) := by
  obtain ⟨m, e, hm, ⟨c, cs, hc, hcv⟩, hmin⟩ := findMin_spec lmax S h.lists.sorted h.nonempty
  refine ⟨m, e, hm, ⟨c, cs, hc, hcv⟩, hmin, ?_⟩
  intro hlt
  obtain ⟨l0, hl0, hn0⟩ := h.nonempty
  obtain ⟨i0, e0, _, hi0, hne, hbef⟩ := firstNonempty_spec S (lmax+1) 0 ⟨l0, Nat.zero_le _, by omega, hn0⟩
  have him : i0 ≤ m.2 := by
    by_contra hcon
    have := hbef m.2 (Nat.zero_le _) (by omega)
    rw [hc] at this; simp at this
  obtain ⟨T, q, eT, hb, hq, hT, hqm, hqi, _⟩ := identLoop_spec lmax m.2 S m.1 hlt h.lists.sorted c cs hc (by rw [hcv]; exact hmin)
    (lmax+1) i0 S (fun _ => none) him (by omega) (fun _ _ => rfl) hne (fun _ _ => rfl) (Or.inl (fun l hl => hbef l (Nat.zero_le _) hl))
    (by intro l r hr; simp at hr) (fun _ => Or.inl rfl)
  have h0 : taken 0 lmax (fun _ => (none : Option (Rect K))) = 0 := by unfold taken; simp [one]
  rw [h0, add_zero] at hb
  exact ⟨i0, T, q, e0, eT, by omega, fun l hl => hbef l (Nat.zero_le _) hl, hb, hT, hq, hqi, ⟨c, hqm⟩⟩

/-- One iteration. -/
theorem turn_spec (n lmax : Nat) (F : (Nat → K) → K) (S : RSet K) (log : List (Nat → K)) (h : Inv n lmax F S log)
    (m : K × Nat) (hf : findMin lmax S = .ok m) (hlt : m.2 < lmax) :
    ∃ i0 sp T log', firstNonempty S (lmax+1) 0 = .ok i0 ∧ identLoop S (fun _ => none) m.2 (lmax+1) i0 = .ok sp ∧
      porDivide lmax n F sp.2 (sp.1, log) = .ok (T, log') ∧ Inv n lmax F T log' ∧ (0 < n → log.length + 2 ≤ log'.length) := by
  obtain ⟨m', e, hm, _, _, h6⟩ := ident_spec n lmax F S log h
  rw [hf] at e
  injection e with e
  subst e
  obtain ⟨i0, T, q, e0, eT, _, _, hb, hT, hq, _, r, hr⟩ := h6 hlt
  obtain ⟨T', log', e', hI, hlen⟩ := porDivide_spec n lmax F q T log
    (by
      intro l r hl hr
      obtain ⟨_, ⟨rs, hS⟩, _⟩ := hq l r hr
      exact h.lists.level l hl.le r (by rw [hS]; simp))
    ⟨by
      intro l hl
      have hs := h.lists.sorted l hl
      rcases hT l with h1 | ⟨r, h1⟩
      · rw [h1]; exact hs
      · rw [h1] at hs; exact (List.pairwise_cons.1 hs).2,
     by
      intro l hl r hr
      refine h.lists.level l hl r ?_
      rcases hT l with h1 | ⟨r', h1⟩
      · rw [← h1]; exact hr
      · rw [h1]; exact List.mem_cons_of_mem _ hr⟩
    (by rw [hb]; exact h.tiling) (by rw [hb]; exact h.log)
  exact ⟨i0, (T, q), T', log', e0, eT, e', hI, fun hn => hlen hn ⟨m.2, hlt, by rw [hr]; simp⟩⟩

theorem solveLoop_spec (n lmax : Nat) (F : (Nat → K) → K) : ∀ (k i ml : Nat) (S : RSet K) (log : List (Nat → K)), Inv n lmax F S log → ml ≤ lmax →
    ∃ E, solveLoop lmax n F k i ml (S, log) = .ok E ∧ Inv n lmax F E.set E.log ∧ E.minLevel ≤ lmax ∧ i ≤ E.ret ∧ E.ret ≤ i + k ∧
      (0 < n → log.length + 2 * (E.ret - i) ≤ E.log.length) ∧
      (E.ret < i + k → E.minLevel = lmax ∧ ∃ c cs, E.set lmax = c :: cs ∧ ∀ l ≤ lmax, ∀ r ∈ E.set l, c.val ≤ r.val) := by
  intro k
  induction k with
  | zero =>
    intro i ml S log h hml
    exact ⟨_, rfl, h, hml, le_refl _, le_refl _, by intro _; dsimp only; omega, by intro h'; dsimp only at h'; omega⟩
  | succ k ih =>
    intro i ml S log h hml
    obtain ⟨m, e, hm, ⟨c, cs, hc, hcv⟩, hmin, _⟩ := ident_spec n lmax F S log h
    unfold solveLoop
    dsimp only
    rw [e]
    dsimp only [Res.bind]
    by_cases hlm : m.2 = lmax
    · rw [if_pos hlm]
      refine ⟨_, rfl, h, hlm.le, le_refl _, by dsimp only; omega, by intro _; dsimp only; omega, ?_⟩
      intro _
      refine ⟨hlm, c, cs, by rw [← hlm]; exact hc, ?_⟩
      rw [hcv]; exact hmin
    · rw [if_neg hlm]
      obtain ⟨i0, sp, T, log', e0, e1, e2, hI, hlen⟩ := turn_spec n lmax F S log h m e (by omega)
      rw [e0]; dsimp only
      rw [e1]; dsimp only
      rw [e2]; dsimp only
      obtain ⟨E, eE, a1, a2, a3, a4, a5, a6⟩ := ih (i+1) m.2 T log' hI hm
      refine ⟨E, eE, a1, a2, by omega, by omega, ?_, fun h' => a6 (by omega)⟩
      intro hn
      have := hlen hn
      have := a5 hn
      omega

theorem start_inv (n lmax : Nat) (F : (Nat → K) → K) : Inv n lmax F (start F) [fun _ => 1/2] := by
  classical
  have hbag : bag lmax (start F) = {{ x := fun _ => 1/2, val := F (fun _ => 1/2), level := fun _ => 0 }} := by
    unfold bag start
    rw [Finset.sum_range_succ']
    rw [set1_same]
    have : ∑ k ∈ Finset.range lmax, ((set1 (fun _ => ([] : List (Rect K))) 0 [{ x := fun _ => 1/2, val := F (fun _ => 1/2), level := fun _ => 0 }] (k+1) : List (Rect K)) : Multiset (Rect K)) = 0 := by
      apply Finset.sum_eq_zero
      intro k _
      rw [set1_ne _ _ (by omega)]; rfl
    rw [this, zero_add]; rfl
  refine ⟨⟨?_, ?_⟩, ⟨?_, ?_, ?_, ?_, ?_⟩, ?_⟩
  · intro l _
    unfold start
    by_cases h : l = 0
    · rw [h, set1_same]; exact List.pairwise_singleton _ _
    · rw [set1_ne _ _ h]; exact List.Pairwise.nil
  · intro l hl r hr
    unfold start at hr
    by_cases h : l = 0
    · subst h
      rw [set1_same, List.mem_singleton] at hr
      subst hr
      exact ⟨fun i _ => ⟨Or.inl rfl, Nat.zero_le _⟩, fun hn => ⟨0, hn, rfl⟩⟩
    · rw [set1_ne _ _ h] at hr; simp at hr
  · intro r hr; rw [hbag, Multiset.mem_singleton] at hr; subst hr; rfl
  · intro r hr i _; rw [hbag, Multiset.mem_singleton] at hr; subst hr; simp
  · intro p hp
    refine ⟨_, by rw [hbag]; exact Multiset.mem_singleton_self _, ?_⟩
    intro i hi
    dsimp only
    rw [pow_zero, div_one]
    exact abs_le.2 ⟨by linarith [(hp i hi).1], by linarith [(hp i hi).2]⟩
  · intro p
    rw [hbag, ← Multiset.cons_zero, Multiset.countP_cons, Multiset.countP_zero]
    split <;> omega
  · rw [hbag, Multiset.map_singleton, Multiset.sum_singleton]
    unfold volume; simp
  · rw [hbag]; rfl

/-! ## Numbers of regions -/

theorem volume_ge (n lmax : Nat) (r : Rect K) (h : ∀ i < n, r.level i ≤ lmax) : 1 / 3 ^ (n * lmax) ≤ volume n r := by
  unfold volume
  have : (1:K) / 3 ^ (n * lmax) = ∏ _i ∈ Finset.range n, 1 / 3 ^ lmax := by
    rw [Finset.prod_const, Finset.card_range, Nat.mul_comm, pow_mul, div_pow, one_pow]
  rw [this]
  refine Finset.prod_le_prod (fun i _ => by positivity) ?_
  intro i hi
  apply one_div_le_one_div_of_le (by positivity)
  exact pow_le_pow_right₀ (by norm_num) (h i (Finset.mem_range.1 hi))

theorem Inv.count {n lmax : Nat} {F : (Nat → K) → K} {S : RSet K} {log : List (Nat → K)} (h : Inv n lmax F S log) : log.length ≤ 3 ^ (n * lmax) := by
  have hc : Multiset.card (bag lmax S) = log.length := by
    have := congrArg Multiset.card h.log
    rwa [Multiset.card_map, Multiset.coe_card] at this
  have hall : ∀ v ∈ (bag lmax S).map (volume n), 1 / 3 ^ (n * lmax) ≤ v := by
    intro v hv
    obtain ⟨r, hr, rfl⟩ := Multiset.mem_map.1 hv
    obtain ⟨l, hl, hm⟩ := (mem_bag lmax S r).1 hr
    exact volume_ge n lmax r (fun i hi => ((h.lists.level l hl r hm).1 i hi).2)
  have := Multiset.card_nsmul_le_sum hall
  rw [h.tiling.total, Multiset.card_map, hc, nsmul_eq_mul, mul_one_div, div_le_one (by positivity)] at this
  exact_mod_cast this

/-! ## The solver -/

/-- Run out of iterations or not, the call does everything up to the choice of the answer. -/
theorem run_spec (f : (Nat → K) → K) (min max : Nat → K) (n lmax : Nat) (iter : Int) :
    ∃ E, solveLoop lmax n (scaled f min max) (iterOf iter) 0 0 (start (scaled f min max), [fun _ => 1/2]) = .ok E ∧
      Inv n lmax (scaled f min max) E.set E.log ∧ E.minLevel ≤ lmax ∧ E.ret ≤ iterOf iter ∧ (0 < n → 1 + 2 * E.ret ≤ E.log.length) ∧
      (E.ret < iterOf iter → E.minLevel = lmax ∧ ∃ c cs, E.set lmax = c :: cs ∧ ∀ l ≤ lmax, ∀ r ∈ E.set l, c.val ≤ r.val) := by
  obtain ⟨E, e, a1, a2, a3, a4, a5, a6⟩ := solveLoop_spec n lmax (scaled f min max) (iterOf iter) 0 0 (start (scaled f min max)) [fun _ => 1/2]
    (start_inv n lmax _) (Nat.zero_le _)
  exact ⟨E, e, a1, a2, by omega, by intro hn; simpa using a5 hn, fun h => a6 (by omega)⟩

/-- **C140 (partial).**  The answer is a point at which the objective was evaluated, with its value, in the search box;
and if the iterations did not run out, no point evaluated has a smaller value. -/
theorem zOptSolveDIRECT_best_partial (f : (Nat → K) → K) (min max : Nat → K) (n lmax : Nat) (iter : Int) (A : Answer K)
    (hA : zOptSolveDIRECT f min max n lmax iter = .ok A) :
    A.eval = f A.ans ∧ (∃ p ∈ A.log, A.ans = scale min max p) ∧ (∀ i < n, min i ≤ max i → min i ≤ A.ans i ∧ A.ans i ≤ max i) ∧
    (A.ret < iterOf iter → ∀ p ∈ A.log, A.eval ≤ f (scale min max p)) := by
  obtain ⟨E, e, hI, hml, _, _, hfin⟩ := run_spec f min max n lmax iter
  unfold zOptSolveDIRECT at hA
  rw [e] at hA
  dsimp only [Res.bind] at hA
  unfold answer at hA
  cases hc : E.set E.minLevel with
  | nil => rw [hc] at hA; simp at hA
  | cons c cs =>
    rw [hc] at hA
    dsimp only at hA
    injection hA with hA
    subst hA
    have hcm : c ∈ bag lmax E.set := (mem_bag _ _ _).2 ⟨E.minLevel, hml, by rw [hc]; simp⟩
    have hlog : ∀ p, p ∈ E.log ↔ ∃ r ∈ bag lmax E.set, r.x = p := by
      intro p
      rw [← Multiset.mem_coe, ← hI.log, Multiset.mem_map]
    dsimp only
    refine ⟨hI.tiling.val c hcm, ⟨c.x, (hlog _).2 ⟨c, hcm, rfl⟩, rfl⟩, ?_, ?_⟩
    · intro i hi hmm
      have := hI.tiling.within c hcm i hi
      have h0 : (0:K) < 1 / 2 / 3 ^ c.level i := by positivity
      have h1 := abs_le.1 (by linarith : |c.x i - 1/2| ≤ 1/2)
      have x0 : 0 ≤ c.x i := by linarith [h1.1]
      have x1 : c.x i ≤ 1 := by linarith [h1.2]
      have hd : 0 ≤ max i - min i := by linarith
      unfold scale
      refine ⟨by linarith [mul_nonneg x0 hd], ?_⟩
      have := mul_le_mul_of_nonneg_right x1 hd
      linarith
    · intro hret p hp
      obtain ⟨hmle, c', cs', hc', hmin⟩ := hfin hret
      rw [hmle, hc'] at hc
      injection hc with hc1 hc2
      subst hc1
      obtain ⟨r, hr, rfl⟩ := (hlog p).1 hp
      obtain ⟨l, hl, hm⟩ := (mem_bag _ _ _).1 hr
      have := hmin l hl r hm
      rw [hI.tiling.val r hr] at this
      exact this

/-- **C140 (partial).**  With enough iterations the call ends by itself. -/
theorem zOptSolveDIRECT_ends (f : (Nat → K) → K) (min max : Nat → K) (n lmax : Nat) (iter : Int) (hn : 0 < n) (hit : 3 ^ (n * lmax) ≤ 2 * iterOf iter) :
    ∃ A, zOptSolveDIRECT f min max n lmax iter = .ok A ∧ A.ret < iterOf iter := by
  obtain ⟨E, e, hI, hml, hle, hlen, hfin⟩ := run_spec f min max n lmax iter
  have hc := hI.count
  have := hlen hn
  have hlt : E.ret < iterOf iter := by omega
  obtain ⟨hm, c, cs, hE, _⟩ := hfin hlt
  refine ⟨_, by unfold zOptSolveDIRECT; rw [e]; dsimp only [Res.bind]; unfold answer; rw [hm, hE], ?_⟩
  exact hlt

/-- **C140 (violated).**  The answer is taken from the list of the region that was divided last: with one iteration in one
dimension this list is empty and the data of its root cell are read, whatever the objective. -/
theorem zOptSolveDIRECT_violated (f : (Nat → K) → K) (min max : Nat → K) (lmax : Nat) (hl : 1 ≤ lmax) :
    zOptSolveDIRECT f min max 1 lmax 1 = .ub := by
  set F := scaled f min max with hF
  set r0 : Rect K := { x := fun _ => 1/2, val := F (fun _ => 1/2), level := fun _ => 0 } with hr0
  have hI := start_inv 1 lmax F
  obtain ⟨m, e, _, ⟨c, cs, hc, _⟩, _, h6⟩ := ident_spec 1 lmax F (start F) _ hI
  have hm0 : m.2 = 0 := by
    by_contra h
    unfold start at hc
    rw [set1_ne _ _ h] at hc
    simp at hc
  unfold zOptSolveDIRECT
  have hit : iterOf 1 = 1 := by decide
  rw [hit, ← hF]
  obtain ⟨L, rfl⟩ : ∃ L, lmax = L + 1 := ⟨lmax - 1, by omega⟩
  unfold solveLoop
  dsimp only
  rw [e]
  dsimp only [Res.bind]
  rw [if_neg (by omega), hm0]
  have hS0 : start F 0 = [r0] := set1_same _ _ _
  have e0 : firstNonempty (start F) (L+1+1) 0 = .ok 0 := by
    unfold firstNonempty; rw [hS0]; rfl
  rw [e0]
  dsimp only
  have e1 : identLoop (start F) (fun _ => none) 0 (L+1+1) 0 = .ok (set1 (start F) 0 [], set1 (fun _ => none) 0 (some r0)) := by
    unfold identLoop; rw [hS0]; rfl
  rw [e1]
  dsimp only
  have hpat : patterns 1 F 0 r0 = [patCreate F 0 r0 0] := by
    unfold patterns
    rw [forUp_left (by omega), forUp_of_le (by omega)]
    unfold patStep
    rw [if_neg (by rw [hr0]; simp)]
    rfl
  have e2 : ∃ T, rectDivide (L+1) 1 F 0 (set1 (start F) 0 []) r0 = .ok T ∧ T 0 = [] := by
    unfold rectDivide
    rw [hpat]
    unfold divideLoop
    dsimp only
    unfold setInsert
    rw [if_pos (by simp)]
    dsimp only [Res.bind]
    rw [if_pos (by simp)]
    dsimp only [Res.bind]
    unfold divideLoop setInsert
    rw [if_pos (by simp)]
    refine ⟨_, rfl, ?_⟩
    simp [set1]
  obtain ⟨T, eT, hT0⟩ := e2
  have e3 : porDivide (L+1) 1 F (set1 (fun _ => none) 0 (some r0)) (set1 (start F) 0 [], [fun _ => 1/2]) = .ok (T, [fun _ => 1/2] ++ points (patterns 1 F 0 r0)) := by
    unfold porDivide
    rw [forUpM_cons (by omega)]
    have : porStep (L+1) 1 F (set1 (fun _ => none) 0 (some r0)) 0 (set1 (start F) 0 [], [fun _ => 1/2]) = .ok (T, [fun _ => 1/2] ++ points (patterns 1 F 0 r0)) := by
      unfold porStep
      rw [set1_same]
      dsimp only
      rw [eT]; rfl
    rw [this]
    obtain ⟨st, e4, h4⟩ := forUpM_ok (lo := 1) (hi := L+1) (porStep (L+1) 1 F (set1 (fun _ => none) 0 (some r0))) (T, [fun _ => 1/2] ++ points (patterns 1 F 0 r0))
      (fun _ st => st = (T, [fun _ => 1/2] ++ points (patterns 1 F 0 r0))) (by omega) rfl (by
        rintro i st h1 h2 rfl
        unfold porStep
        rw [set1_ne _ _ (by omega)]
        exact ⟨_, rfl, rfl⟩)
    show forUpM 1 (L+1) _ _ = _
    rw [e4, h4]
  rw [e3]
  dsimp only
  unfold solveLoop answer
  dsimp only
  rw [hT0]

/-- **C140 (violated).**  In two dimensions, with one iteration, the answer is worse than the centre, which was evaluated:
the objective is the sum of squares over `[-1, 1]²`, and the call answers with another point. -/
theorem zOptSolveDIRECT_worse_violated :
    (match zOptSolveDIRECT (fun x : Nat → ℚ => x 0 * x 0 + x 1 * x 1) (fun _ => -1) (fun _ => 1) 2 3 1 with
      | .ok A => decide (A.eval > 0) && A.log.any (fun p => decide (scale (fun _ => -1) (fun _ => 1) p 0 = 0 ∧ scale (fun _ => -1) (fun _ => (1:ℚ)) p 1 = 0))
      | _ => false) = true := by decide +kernel

/-- A run that ends by itself: the hypotheses of `zOptSolveDIRECT_best_partial` and of `zOptSolveDIRECT_ends` hold. -/
example : ∃ A, zOptSolveDIRECT (fun x : Nat → ℚ => x 0 * x 0 + x 1 * x 1) (fun _ => -1) (fun _ => 2) 2 3 0 = .ok A ∧ A.ret < iterOf 0 :=
  zOptSolveDIRECT_ends _ _ _ 2 3 0 (by decide) (by decide)

/-- **C142.**  At each iteration: a region taken for division is potentially optimal and the best of its list; one of
the largest regions and one of the least value are among them. -/
theorem zOptSolveDIRECT_potentially_optimal (f : (Nat → K) → K) (min max : Nat → K) (n lmax : Nat) (k : Nat) (E : Ended K)
    (hE : solveLoop lmax n (scaled f min max) k 0 0 (start (scaled f min max), [fun _ => 1/2]) = .ok E) :
    ∃ m, findMin lmax E.set = .ok m ∧ (∀ l ≤ lmax, ∀ r ∈ E.set l, m.1 ≤ r.val) ∧
      (m.2 < lmax → ∃ i0 T q, firstNonempty E.set (lmax+1) 0 = .ok i0 ∧ identLoop E.set (fun _ => none) m.2 (lmax+1) i0 = .ok (T, q) ∧
        (∀ l r, q l = some r → (∃ rs, E.set l = r :: rs) ∧ (∀ s ∈ E.set l, r.val ≤ s.val) ∧ PotOpt lmax E.set l r) ∧
        (∃ l r, q l = some r ∧ ∀ k ≤ lmax, E.set k ≠ [] → l ≤ k) ∧ (∃ l r, q l = some r ∧ r.val = m.1)) := by
  obtain ⟨E', e, hI, _⟩ := solveLoop_spec n lmax (scaled f min max) k 0 0 (start (scaled f min max)) [fun _ => 1/2] (start_inv n lmax _) (Nat.zero_le _)
  rw [hE] at e
  injection e with e
  subst e
  obtain ⟨m, e1, hm, ⟨c, cs, hc, hcv⟩, hmin, h6⟩ := ident_spec n lmax _ _ _ hI
  refine ⟨m, e1, hmin, fun hlt => ?_⟩
  obtain ⟨i0, T, q, e2, e3, hi0, hbef, _, _, hq, ⟨r, hr⟩, ⟨r', hr'⟩⟩ := h6 hlt
  refine ⟨i0, T, q, e2, e3, ?_, ⟨i0, r, hr, ?_⟩, ⟨m.2, r', hr', ?_⟩⟩
  · intro l r hr
    obtain ⟨a, ⟨rs, hrs⟩, b⟩ := hq l r hr
    refine ⟨⟨rs, hrs⟩, ?_, b⟩
    intro s hs
    have := hI.lists.sorted l (by omega)
    rw [hrs] at this hs
    rcases List.mem_cons.1 hs with rfl | hs
    · exact le_refl _
    · exact (List.pairwise_cons.1 this).1 s hs
  · intro k _ hk
    by_contra hcon
    exact hk (hbef k (by omega))
  · obtain ⟨_, ⟨rs, hrs⟩, _⟩ := hq m.2 r' hr'
    rw [hc] at hrs
    injection hrs with p1 _
    rw [← p1, hcv]

/-- Two iterations in the square leave one region of the first size and six of the next. -/
example : (match solveLoop 3 2 (fun x : Nat → ℚ => x 0 + 2 * x 1) 2 0 0 (start (fun x : Nat → ℚ => x 0 + 2 * x 1), [fun _ => 1/2]) with
      | .ok E => decide ((E.set 0).length = 1 ∧ (E.set 1).length = 6 ∧ E.log.length = 7)
      | _ => false) = true := by decide +kernel

/-- **C141.**  The regions tile the search box in order at all times. -/
theorem zOptSolveDIRECT_tiling (f : (Nat → K) → K) (min max : Nat → K) (n lmax : Nat) (k : Nat) :
    ∃ E, solveLoop lmax n (scaled f min max) k 0 0 (start (scaled f min max), [fun _ => 1/2]) = .ok E ∧
      Tiling n (scaled f min max) (bag lmax E.set) ∧ Lists n lmax E.set := by
  obtain ⟨E, e, hI, _⟩ := solveLoop_spec n lmax (scaled f min max) k 0 0 (start (scaled f min max)) [fun _ => 1/2] (start_inv n lmax _) (Nat.zero_le _)
  exact ⟨E, e, hI.tiling, hI.lists⟩

/-- **C141.**  No point is evaluated twice, every point evaluated is in the search box, and there are at most
`3 ^ (n * lmax)` of them; the objective is evaluated at three points at least in each iteration. -/
theorem zOptSolveDIRECT_evaluations (f : (Nat → K) → K) (min max : Nat → K) (n lmax : Nat) (iter : Int) (A : Answer K)
    (hA : zOptSolveDIRECT f min max n lmax iter = .ok A) :
    (∀ p ∈ A.log, InCube n p) ∧ (∀ p q, [p, q].Sublist A.log → ∃ i < n, p i ≠ q i) ∧ A.log.length ≤ 3 ^ (n * lmax) ∧
    A.ret ≤ iterOf iter ∧ (0 < n → 1 + 2 * A.ret ≤ A.log.length) := by
  classical
  obtain ⟨E, e, hI, hml, hle, hlen, _⟩ := run_spec f min max n lmax iter
  unfold zOptSolveDIRECT at hA
  rw [e] at hA
  dsimp only [Res.bind] at hA
  unfold answer at hA
  cases hc : E.set E.minLevel with
  | nil => rw [hc] at hA; simp at hA
  | cons c cs =>
    rw [hc] at hA
    dsimp only at hA
    injection hA with hA
    subst hA
    dsimp only
    refine ⟨?_, ?_, hI.count, hle, hlen⟩
    · intro p hp
      rw [← Multiset.mem_coe, ← hI.log, Multiset.mem_map] at hp
      obtain ⟨r, hr, rfl⟩ := hp
      intro i hi
      have := hI.tiling.within r hr i hi
      have h0 : (0:K) < 1 / 2 / 3 ^ r.level i := by positivity
      have h1 := abs_le.1 (by linarith : |r.x i - 1/2| ≤ 1/2)
      exact ⟨by linarith [h1.1], by linarith [h1.2]⟩
    · intro p q hs
      by_contra hcon
      push Not at hcon
      have h1 : ([p, q] : Multiset (Nat → K)) ≤ (bag lmax E.set).map (fun r => r.x) := by
        rw [hI.log]; exact Multiset.coe_le.2 hs.subperm
      have h2 := Multiset.countP_le_of_le (fun y => ∀ i < n, y i = p i) h1
      rw [Multiset.countP_map] at h2
      have h3 : ((([p, q] : List (Nat → K)) : Multiset (Nat → K))).countP (fun y => ∀ i < n, y i = p i) = 2 := by
        rw [Multiset.coe_countP]
        simp [List.countP_cons]
        intro i hi; exact (hcon i hi).symm
      rw [h3] at h2
      have h4 := hI.tiling.disjoint p
      have h5 : (bag lmax E.set).countP (fun r => ∀ i < n, r.x i = p i) ≤ (bag lmax E.set).countP (fun r => Inside n r p) := by
        rw [Multiset.countP_eq_card_filter, Multiset.countP_eq_card_filter]
        refine Multiset.card_le_card (Multiset.monotone_filter_right _ ?_)
        intro r hr i hi
        rw [hr i hi, sub_self, abs_zero]; positivity
      rw [Multiset.countP_eq_card_filter] at h5
      omega

end Zm.Direct
