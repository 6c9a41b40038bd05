import Verif.Model.Silh
import Verif.Props.Cluster
import Verif.Props.DataMore
import Mathlib.Algebra.Order.BigOperators.Group.Finset
import Mathlib.Algebra.BigOperators.Intervals

/-! # Mean and largest silhouettes (C246) -/

set_option linter.unusedSectionVars false

namespace Zm.Clus
open Zm

variable {K P : Type*} [Field K] [LinearOrder K] [IsStrictOrderedRing K] [DecidableEq P]

/-- specification: `x` is the silhouette of the point `p` of the cluster `a`: with `b` the nearest other cluster by mean distance, the difference of the mean distances over the larger one -/
def IsSil (dist : P → P → K) (k : Nat) (cl : Nat → List P) (a : Nat) (p : P) (x : K) : Prop :=
  ∃ b, b < k ∧ b ≠ a ∧ (∀ c < k, c ≠ a → meanDist dist (cl b) p ≤ meanDist dist (cl c) p) ∧
    x = (meanDist dist (cl b) p - meanDist dist (cl a) p) / max (meanDist dist (cl a) p) (meanDist dist (cl b) p)

theorem silSamples_ok (f : P → Res K) (s : P → K) (l : List P) (h : ∀ p ∈ l, f p = .ok (s p)) : silSamples f l = .ok (l.map s) := by
  induction l with
  | nil => rfl
  | cons p l ih =>
    unfold silSamples
    rw [h p List.mem_cons_self, ih fun q hq => h q (List.mem_cons_of_mem _ hq)]
    rfl

theorem foldl_add (l : List K) (x : K) : l.foldl (fun score s => score + s) x = x + l.sum := by
  induction l generalizing x with
  | nil => simp
  | cons y l ih => rw [List.foldl_cons, ih, List.sum_cons, add_assoc]

/-- **C246.** With two or more clusters, none empty, and points at a positive mean distance from the clusters they do not belong to, `zVecMultiClusterMeanSilhouette` gives the mean of
the silhouettes of all points, which is between -1 and 1, and keeps in each cluster the silhouettes of its points in ascending order. -/
theorem meanSilhouette_spec (sort : (K → K → Int) → List K → List K) (hs : Data.SortOk sort) (dist : P → P → K) (hd : ∀ p q, 0 ≤ dist p q) (k : Nat) (hk : 2 ≤ k)
    (cl : Nat → List P) (hcl : ∀ a < k, cl a ≠ []) (hpos : ∀ a < k, ∀ p ∈ cl a, ∀ b < k, b ≠ a → 0 < meanDist dist (cl b) p) (sil0 : Nat → Option (List K)) :
    ∃ (s : Nat → P → K) (sil : Nat → Option (List K)) (m : K), meanSilhouette sort dist k cl sil0 = .ok (sil, m) ∧
      (∀ a < k, ∀ p ∈ cl a, IsSil dist k cl a p (s a p)) ∧
      m = (∑ a ∈ Finset.range k, ((cl a).map (s a)).sum) / ((∑ a ∈ Finset.range k, (cl a).length : Nat) : K) ∧ -1 ≤ m ∧ m ≤ 1 ∧
      (∀ a < k, ∃ ss, sil a = some ss ∧ ss.Perm ((cl a).map (s a)) ∧ ss.Pairwise (· ≤ ·)) ∧ ∀ a, k ≤ a → sil a = sil0 a := by
  have hsp := fun a (ha : a < k) p (hp : p ∈ cl a) => silhouette_spec dist hd k hk cl hcl a ha p (hpos a ha p hp)
  let s : Nat → P → K := fun a p => match silhouette dist k cl a p with | .ok x => x | _ => 0
  have hsv : ∀ a < k, ∀ p ∈ cl a, silhouette dist k cl a p = .ok (s a p) ∧ IsSil dist k cl a p (s a p) ∧ -1 ≤ s a p ∧ s a p ≤ 1 := by
    intro a ha p hp
    obtain ⟨x, b, e, h1, h2, h3, h4, h5, h6, _⟩ := hsp a ha p hp
    have : s a p = x := by show (match silhouette dist k cl a p with | .ok x => x | _ => 0) = x; rw [e]
    rw [this]
    exact ⟨e, ⟨b, h1, h2, h3, h4⟩, h5, h6⟩
  obtain ⟨st, e, h1, h2, h3, h4⟩ := forUpM_ok (lo := 0) (hi := k) (silCluster sort dist k cl) (sil0, 0, 0)
    (fun i st => st.2.1 = ∑ a ∈ Finset.range i, ((cl a).map (s a)).sum ∧ st.2.2 = ∑ a ∈ Finset.range i, (cl a).length ∧
      (∀ a < i, st.1 a = some (Data.zDataSort sort ((cl a).map (s a)))) ∧ ∀ a, i ≤ a → st.1 a = sil0 a) (Nat.zero_le _)
    ⟨by simp, by simp, fun a ha => absurd ha (Nat.not_lt_zero _), fun _ _ => rfl⟩ (by
      intro i t _ hi ⟨g1, g2, g3, g4⟩
      refine ⟨(upd t.1 i (some (Data.zDataSort sort ((cl i).map (s i)))), ((cl i).map (s i)).foldl (fun score s => score + s) t.2.1, t.2.2 + (cl i).length), ?_, ?_, ?_, ?_, ?_⟩
      · unfold silCluster
        rw [silSamples_ok _ (s i) (cl i) fun p hp => (hsv i hi p hp).1]
        rfl
      · show List.foldl _ _ _ = _
        rw [foldl_add, Finset.sum_range_succ, g1]
      · show t.2.2 + _ = _
        rw [Finset.sum_range_succ, g2]
      · intro a ha
        by_cases h : a = i
        · subst h; exact upd_same _ _ _
        · show upd _ _ _ a = _
          rw [upd_ne _ _ h]; exact g3 a (by omega)
      · intro a ha
        show upd _ _ _ a = _
        rw [upd_ne _ _ (by omega)]; exact g4 a (by omega))
  have hlen : ∀ a < k, 1 ≤ (cl a).length := fun a ha => List.length_pos_iff.mpr (hcl a ha)
  have hn : 0 < ∑ a ∈ Finset.range k, (cl a).length :=
    lt_of_lt_of_le (hlen 0 (by omega)) (Finset.single_le_sum (f := fun a => (cl a).length) (fun _ _ => Nat.zero_le _) (Finset.mem_range.mpr (by omega)))
  have hnK : (0:K) < ((∑ a ∈ Finset.range k, (cl a).length : Nat) : K) := by exact_mod_cast hn
  have hb : ∀ (l : List P) (g : P → K), (∀ p ∈ l, -1 ≤ g p ∧ g p ≤ 1) → -(l.length : K) ≤ (l.map g).sum ∧ (l.map g).sum ≤ l.length := by
    intro l g
    induction l with
    | nil => intro _; simp
    | cons p l ih =>
      intro h
      obtain ⟨a1, a2⟩ := h p List.mem_cons_self
      obtain ⟨b1, b2⟩ := ih fun q hq => h q (List.mem_cons_of_mem _ hq)
      rw [List.map_cons, List.sum_cons, List.length_cons]
      push_cast
      constructor <;> linarith
  refine ⟨s, st.1, _, ?_, fun a ha p hp => (hsv a ha p hp).2.1, rfl, ?_, ?_, ?_, h4⟩
  · unfold meanSilhouette
    rw [e]
    show (if st.2.2 = 0 then _ else _) = _
    rw [if_neg (by rw [h2]; omega), h1, h2]
  · rw [le_div_iff₀ hnK, neg_one_mul, Nat.cast_sum, ← Finset.sum_neg_distrib]
    exact Finset.sum_le_sum fun a ha => (hb _ _ fun p hp => (hsv a (Finset.mem_range.mp ha) p hp).2.2).1
  · rw [div_le_one hnK, Nat.cast_sum]
    exact Finset.sum_le_sum fun a ha => (hb _ _ fun p hp => (hsv a (Finset.mem_range.mp ha) p hp).2.2).2
  · intro a ha
    obtain ⟨c1, c2⟩ := Data.zDataSort_correct sort hs ((cl a).map (s a))
    exact ⟨_, h3 a ha, c1, c2⟩

/-- **C246.** On silhouettes in ascending order, one for each of the samples, of which there is one at least, `zVecClusterMaxSilhouette` gives the largest; without a cluster or silhouettes, -HUGE_VAL. -/
theorem maxSilhouette_partial (ss : List K) (hss : ss.Pairwise (· ≤ ·)) (hne : ss ≠ []) :
    (∃ x ∈ ss, maxSilhouette (some (ss.length, some ss)) = .ok (some x) ∧ ∀ y ∈ ss, y ≤ x) ∧
    maxSilhouette (K := K) none = .ok none ∧ ∀ n, maxSilhouette (K := K) (some (n, none)) = .ok none := by
  refine ⟨?_, rfl, fun n => by cases n <;> rfl⟩
  obtain ⟨n, hn⟩ : ∃ n, ss.length = n + 1 := ⟨ss.length - 1, by have := List.length_pos_iff.mpr hne; omega⟩
  have hlt : n < ss.length := by omega
  refine ⟨ss[n], List.getElem_mem hlt, ?_, fun y hy => ?_⟩
  · rw [hn]
    show (match ss[n]? with | some s => Res.ok (some s) | none => .ub) = _
    rw [List.getElem?_eq_getElem hlt]
  · obtain ⟨i, hi, rfl⟩ := List.getElem_of_mem hy
    by_cases h : i = n
    · subst h; exact le_rfl
    · exact List.pairwise_iff_getElem.mp hss i n hi hlt (by omega)

/-- **C246.** After `zVecMultiClusterMeanSilhouette` the largest silhouette of each cluster is the largest of those of its points. -/
theorem maxSilhouette_after_partial (sort : (K → K → Int) → List K → List K) (hs : Data.SortOk sort) (dist : P → P → K) (hd : ∀ p q, 0 ≤ dist p q) (k : Nat) (hk : 2 ≤ k)
    (cl : Nat → List P) (hcl : ∀ a < k, cl a ≠ []) (hpos : ∀ a < k, ∀ p ∈ cl a, ∀ b < k, b ≠ a → 0 < meanDist dist (cl b) p) (sil0 : Nat → Option (List K)) :
    ∃ sil m, meanSilhouette sort dist k cl sil0 = .ok (sil, m) ∧ ∀ a < k, ∃ x, maxSilhouette (some ((cl a).length, sil a)) = .ok (some x) ∧
      (∃ p ∈ cl a, IsSil dist k cl a p x) ∧ ∀ p ∈ cl a, ∃ y, IsSil dist k cl a p y ∧ y ≤ x := by
  obtain ⟨s, sil, m, e, h1, _, _, _, h2, _⟩ := meanSilhouette_spec sort hs dist hd k hk cl hcl hpos sil0
  refine ⟨sil, m, e, fun a ha => ?_⟩
  obtain ⟨ss, g1, g2, g3⟩ := h2 a ha
  have hlen : ss.length = (cl a).length := by rw [g2.length_eq, List.length_map]
  have hne : ss ≠ [] := by
    intro h
    rw [h] at hlen
    exact hcl a ha (List.length_eq_zero_iff.mp hlen.symm)
  obtain ⟨⟨x, hx, hm, hle⟩, _⟩ := maxSilhouette_partial ss g3 hne
  refine ⟨x, by rw [g1, ← hlen]; exact hm, ?_, fun p hp => ⟨s a p, h1 a ha p hp, hle _ (g2.symm.mem_iff.mp (List.mem_map_of_mem hp))⟩⟩
  obtain ⟨p, hp, rfl⟩ := List.mem_map.mp (g2.mem_iff.mp hx)
  exact ⟨p, hp, h1 a ha p hp⟩

/-- **C246, violated.** A cluster that has silhouettes and has lost its samples, or has got more of them since, is read outside of its silhouettes. -/
theorem maxSilhouette_violated (ss : List K) : maxSilhouette (some (0, some ss)) = .ub ∧ maxSilhouette (some (ss.length + 1, some ss)) = .ub := by
  refine ⟨rfl, ?_⟩
  show (match ss[ss.length]? with | some s => Res.ok (some s) | none => .ub) = _
  rw [List.getElem?_eq_none le_rfl]

/-- **C246.** `zVecClusterCreate` gives a cluster without silhouettes, or fails when there is no core; violated: where it fails on a structure that nobody has
written to, it releases an arbitrary pointer. -/
theorem clusterCreate_violated : (∀ p, clusterCreate true p = .ok (some .null)) ∧ clusterCreate false .null = .ok none ∧ clusterCreate false .wild = .ub := ⟨fun _ => rfl, rfl, rfl⟩

/-- four points in two clusters: the hypotheses are met, and the mean is what it is -/
example : (match meanSilhouette (fun cmp l => l.insertionSort fun a b => cmp a b ≤ 0) exDist 2 (fun a => if a = 0 then [0, 1] else [2, 3]) (fun _ => none) with
    | .ok (sil, m) => decide (m = (21/22 + 19/20 + 17/19 + 21/23)/4 ∧ sil 0 = some [19/20, 21/22] ∧ sil 5 = none)
    | _ => false) = true := by decide +kernel

example : ∀ a < 2, ∀ p ∈ (if a = 0 then [0, 1] else [2, 3]), ∀ b < 2, b ≠ a → 0 < meanDist exDist (if b = 0 then [0, 1] else [2, 3]) p := by decide +kernel

end Zm.Clus
