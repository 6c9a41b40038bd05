import Verif.Model.Cluster
import Verif.Props.Stat
import Mathlib.Algebra.Field.Rat
import Mathlib.Algebra.Order.Ring.Rat
import Mathlib.Data.List.Perm.Basic
import Mathlib.Data.List.Perm.Subperm
import Mathlib.Data.List.Count
import Mathlib.Algebra.Order.BigOperators.Group.List
import Mathlib.Algebra.BigOperators.Group.List.Basic
import Mathlib.Algebra.BigOperators.Ring.List
import Mathlib.Tactic.Linarith
import Mathlib.Tactic.Ring
import Mathlib.Tactic.Positivity

/-!
# Clustering

C68: the clusters always form a partition of the points, and settled clusters are those of the nearest cores; C99: another turn never makes the sum of errors larger;
C100: X-means keeps the partition; C101: silhouettes.
-/

set_option linter.unusedSectionVars false

namespace Zm.Clus

section order
variable {K P C : Type*} [Field K] [LinearOrder K] [DecidableEq P]

/-- Specification: the clusters form a partition of the points (each point in one cluster, as often as it is given). -/
def Partition (k : Nat) (cl : Nat → List P) (points : List P) : Prop := ((List.range k).flatMap cl).Perm points

theorem upd_same {α : Type*} (f : Nat → α) (i : Nat) (a : α) : upd f i a i = a := if_pos rfl
theorem upd_ne {α : Type*} (f : Nat → α) {i j : Nat} (a : α) (h : j ≠ i) : upd f i a j = f j := if_neg h

theorem mem_flat {k : Nat} {cl : Nat → List P} {p : P} : p ∈ (List.range k).flatMap cl ↔ ∃ a < k, p ∈ cl a := by
  simp only [List.mem_flatMap, List.mem_range]

theorem count_flat (k : Nat) (cl : Nat → List P) (p : P) : ((List.range k).flatMap cl).count p = ∑ i ∈ Finset.range k, (cl i).count p := by
  induction k with
  | zero => rfl
  | succ k ih => rw [List.range_succ, List.flatMap_append, List.count_append, ih, Finset.sum_range_succ]; simp

/-- A list appended to one cluster is appended to the whole, up to the order. -/
theorem flat_append (k : Nat) (cl cl' : Nat → List P) (ex : List P) (h : ∀ p, ∑ i ∈ Finset.range k, (cl' i).count p = (∑ i ∈ Finset.range k, (cl i).count p) + ex.count p) :
    ((List.range k).flatMap cl').Perm ((List.range k).flatMap cl ++ ex) := by
  rw [List.perm_iff_count]
  intro p
  rw [count_flat, List.count_append, count_flat, h]

/-! ## The nearest core -/

theorem nearest_spec (k : Nat) (f : Nat → K) (a : Nat) (hk : 0 < k) :
    nearest k f a < k ∧ (∀ j < k, f (nearest k f a) ≤ f j) ∧ ∀ j < nearest k f a, f (nearest k f a) < f j := by
  have key := forUp_inv (lo := 0) (hi := k) (fun i (st : Option K × Nat) => if ltInf (f i) st.1 then (some (f i), i) else st) (none, a)
    (fun i st => (i = 0 ∧ st = (none, a)) ∨ (0 < i ∧ st.1 = some (f st.2) ∧ st.2 < i ∧ (∀ j < i, f st.2 ≤ f j) ∧ ∀ j < st.2, f st.2 < f j)) (Nat.zero_le _) (.inl ⟨rfl, rfl⟩)
    (by
      rintro i ⟨d, c⟩ _ _ hP
      right
      dsimp only at hP ⊢
      rcases hP with ⟨h1, h2⟩ | ⟨h0, h1, h2, h3, h4⟩
      · simp only [Prod.mk.injEq] at h2
        rw [h2.1, if_pos (show ltInf (f i) none from trivial)]
        subst h1
        exact ⟨by omega, rfl, by dsimp only; omega, by intro j hj; rw [show j = 0 by omega], by intro j hj; dsimp only at hj; omega⟩
      · subst h1
        by_cases hc : f i < f c
        · rw [if_pos (show ltInf (f i) (some (f c)) from hc)]
          refine ⟨by omega, rfl, by dsimp only; omega, ?_, ?_⟩
          · intro j hj
            by_cases hji : j = i
            · rw [hji]
            · exact hc.le.trans (h3 j (by omega))
          · intro j hj
            dsimp only at hj ⊢
            exact lt_of_lt_of_le hc (h3 j (by omega))
        · rw [if_neg (show ¬ ltInf (f i) (some (f c)) from hc)]
          refine ⟨by omega, rfl, by dsimp only; omega, ?_, h4⟩
          intro j hj
          by_cases hji : j = i
          · rw [hji]; exact not_lt.1 hc
          · exact h3 j (by omega))
  rcases key with ⟨h, _⟩ | ⟨_, _, h2, h3, h4⟩
  · omega
  · exact ⟨h2, h3, h4⟩

/-- The nearest cluster does not depend on the cluster the point is in. -/
theorem nearest_indep (k : Nat) (f : Nat → K) (a b : Nat) (hk : 0 < k) : nearest k f a = nearest k f b := by
  obtain ⟨a1, a2, a3⟩ := nearest_spec k f a hk
  obtain ⟨b1, b2, b3⟩ := nearest_spec k f b hk
  rcases lt_trichotomy (nearest k f a) (nearest k f b) with h | h | h
  · exact absurd (b3 _ h) (not_lt.2 (a2 _ b1))
  · exact h
  · exact absurd (a3 _ h) (not_lt.2 (b2 _ a1))

/-! ## One turn -/

/-- One cluster: its points that are nearest to another one are appended there. -/
theorem moveCluster_eq (N : P → Nat) (near : P → Nat → Nat) (a : Nat) (hN : ∀ p, near p a = N p) (cl : Nat → List P) (fl : Bool) :
    moveCluster near a (cl, fl) = ((fun b => if b = a then (cl a).filter (fun p => N p = a) else cl b ++ (cl a).filter (fun p => N p = b)), fl || (cl a).any fun p => N p ≠ a) := by
  have gen : ∀ (rest kept : List P) (g : Nat → List P) (fl : Bool), (∀ p ∈ kept, N p = a) → g a = kept ++ rest →
      rest.foldl (moveStep near a) (g, fl) =
        ((fun b => if b = a then kept ++ rest.filter (fun p => N p = a) else g b ++ rest.filter (fun p => N p = b)), fl || rest.any fun p => N p ≠ a) := by
    intro rest
    induction rest with
    | nil =>
      intro kept g fl _ hg
      refine Prod.ext ?_ (by simp)
      funext b
      by_cases hb : b = a
      · subst hb; simpa using hg
      · simp [hb]
    | cons p rest ih =>
      intro kept g fl hk hg
      rw [List.foldl_cons]
      by_cases hp : N p = a
      · have e : moveStep near a (g, fl) p = (g, fl) := by unfold moveStep; rw [hN, if_neg (by simpa using hp)]
        rw [e, ih (kept ++ [p]) g fl (by intro q hq; rcases List.mem_append.1 hq with hq | hq; exact hk q hq; rw [List.mem_singleton.1 hq]; exact hp) (by simpa using hg)]
        refine Prod.ext ?_ (by simp [hp])
        funext b
        by_cases hb : b = a
        · subst hb; simp [hp]
        · simp only [if_neg hb]
          rw [List.filter_cons_of_neg]
          simpa [hp] using fun h => hb h.symm
      · have hnot : p ∉ kept := fun h => hp (hk p h)
        have e : moveStep near a (g, fl) p = (upd (upd g a (kept ++ rest)) (N p) (g (N p) ++ [p]), true) := by
          unfold moveStep
          rw [hN, if_pos hp]
          dsimp only
          rw [hg, List.erase_append_right _ hnot, List.erase_cons_head, upd_ne (i := a) _ _ hp]
        rw [e, ih kept _ true hk (by rw [upd_ne _ _ (fun h => hp h.symm), upd_same])]
        refine Prod.ext ?_ (by simp [hp])
        funext b
        by_cases hb : b = a
        · subst hb; simp [hp]
        · simp only [if_neg hb]
          by_cases hbp : b = N p
          · subst hbp; rw [upd_same]; simp
          · rw [upd_ne _ _ hbp, upd_ne _ _ hb, List.filter_cons_of_neg]
            simpa using fun h => hbp h.symm
  exact gen (cl a) [] cl fl (by simp) rfl

/-- One turn over all clusters: a partition stays one, every point ends in its nearest cluster, and when nothing moved they were there already. -/
theorem movePass_spec (N : P → Nat) (near : P → Nat → Nat) (k : Nat) (hN : ∀ p a, near p a = N p) (hk : ∀ p, N p < k) (cl : Nat → List P) :
    Partition k (movePass near k cl).1 ((List.range k).flatMap cl) ∧ (∀ b < k, ∀ p ∈ (movePass near k cl).1 b, N p = b) ∧
      ((movePass near k cl).2 = false → (movePass near k cl).1 = cl) := by
  have key := forUp_inv (lo := 0) (hi := k) (moveCluster near) (cl, false)
    (fun a st => (∀ p, ∑ i ∈ Finset.range k, (st.1 i).count p = ∑ i ∈ Finset.range k, (cl i).count p) ∧ (∀ b < a, ∀ p ∈ st.1 b, N p = b) ∧ (st.2 = false → st.1 = cl))
    (Nat.zero_le _) ⟨fun _ => rfl, by intro b hb; omega, fun _ => rfl⟩
    (by
      rintro a ⟨g, fl⟩ _ ha ⟨h1, h2, h3⟩
      rw [moveCluster_eq N near a (fun p => hN p a)]
      dsimp only at h1 h2 h3 ⊢
      refine ⟨?_, ?_, ?_⟩
      · intro p
        rw [← h1 p]
        -- the points leave one cluster and enter another
        have e : ∀ i ∈ Finset.range k, (if i = a then (g a).filter (fun p => N p = a) else g i ++ (g a).filter (fun p => N p = i)).count p + (if i = a then (g a).count p else 0)
            = (g i).count p + (if i = N p then (g a).count p else 0) := by
          intro i _
          by_cases hia : i = a
          · subst hia
            simp only [if_true]
            by_cases hip : i = N p
            · rw [if_pos hip, List.count_filter (by simp [← hip])]
            · rw [if_neg hip, List.count_eq_zero_of_not_mem (by simp only [List.mem_filter, decide_eq_true_eq]; exact fun h => hip h.2.symm)]; omega
          · rw [if_neg hia, if_neg hia, List.count_append]
            by_cases hip : i = N p
            · rw [if_pos hip, List.count_filter (by simp [← hip])]; rfl
            · rw [if_neg hip, List.count_eq_zero_of_not_mem (a := p) (l := (g a).filter _) (by simp only [List.mem_filter, decide_eq_true_eq]; exact fun h => hip h.2.symm)]
        have e2 := Finset.sum_congr rfl e
        rw [Finset.sum_add_distrib, Finset.sum_add_distrib, Finset.sum_ite_eq' (Finset.range k) a, Finset.sum_ite_eq' (Finset.range k) (N p),
          if_pos (Finset.mem_range.2 ha), if_pos (Finset.mem_range.2 (hk p))] at e2
        exact Nat.add_right_cancel e2
      · intro b hb p hp
        by_cases hba : b = a
        · subst hba
          rw [if_pos rfl] at hp
          simpa using (List.mem_filter.1 hp).2
        · rw [if_neg hba] at hp
          rcases List.mem_append.1 hp with hp | hp
          · exact h2 b (by omega) p hp
          · simpa using (List.mem_filter.1 hp).2
      · intro hf
        rw [Bool.or_eq_false_iff] at hf
        have hg := h3 hf.1
        have hall : ∀ p ∈ g a, N p = a := by
          intro p hp
          have := List.any_eq_false.1 hf.2 p hp
          simpa using this
        rw [← hg]
        funext b
        by_cases hba : b = a
        · subst hba
          rw [if_pos rfl, List.filter_eq_self]
          intro p hp; simpa using hall p hp
        · rw [if_neg hba]
          have : (g a).filter (fun p => N p = b) = [] := by
            rw [List.filter_eq_nil_iff]
            intro p hp
            rw [hall p hp]
            simpa using fun h => hba h.symm
          rw [this, List.append_nil])
  refine ⟨?_, key.2.1, key.2.2⟩
  unfold Partition
  rw [List.perm_iff_count]
  intro p
  rw [count_flat, count_flat]
  exact key.1 p

theorem cores_spec (core : List P → Res C) (k : Nat) (cl : Nat → List P) (cores cores' : Nat → C) (h : forUpM 0 k (coresLoop core cl) cores = .ok cores') :
    ∀ a < k, core (cl a) = .ok (cores' a) := by
  refine forUpM_of_ok (P := fun i (c : Nat → C) => ∀ a < i, core (cl a) = .ok (c a)) (Nat.zero_le _) (by intro a ha; omega) ?_ h
  intro i t t' _ _ hP ht a ha
  unfold coresLoop at ht
  cases hc : core (cl i) with
  | fail => rw [hc] at ht; simp at ht
  | ub => rw [hc] at ht; simp at ht
  | ok c =>
    rw [hc] at ht
    simp only [Res.ok.injEq] at ht
    rw [← ht]
    by_cases hai : a = i
    · rw [hai, upd_same]; exact hc
    · rw [upd_ne _ _ hai]; exact hP a (by omega)

theorem cores_total (core : List P → Res C) (k : Nat) (cl : Nat → List P) (cores : Nat → C) (h : ∀ a < k, ∃ c, core (cl a) = .ok c) :
    ∃ cores', forUpM 0 k (coresLoop core cl) cores = .ok cores' := by
  obtain ⟨c, e, _⟩ := forUpM_ok (lo := 0) (hi := k) (coresLoop core cl) cores (fun _ _ => True) (Nat.zero_le _) trivial
    (by
      intro i t _ hi _
      obtain ⟨c, hc⟩ := h i hi
      exact ⟨upd t i c, by unfold coresLoop; rw [hc], trivial⟩)
  exact ⟨c, e⟩

/-- What the user gets from settled clusters: the cores belong to the clusters, and every point is in a cluster whose core is nearest. -/
def Settled (core : List P → Res C) (err : P → C → K) (k : Nat) (cl : Nat → List P) (cores : Nat → C) : Prop :=
  (∀ a < k, core (cl a) = .ok (cores a)) ∧ ∀ a < k, ∀ p ∈ cl a, ∀ b < k, err p (cores a) ≤ err p (cores b)

/-- C68: reclustering, for every method: a partition of the points stays one, settled or not, and settled clusters are those of the nearest cores. -/
theorem recluster_spec (core : List P → Res C) (err : P → C → K) (k : Nat) (hk : 0 < k) (n i : Nat) (cl : Nat → List P) (cores : Nat → C)
    (i' : Nat) (cl' : Nat → List P) (cores' : Nat → C) (b : Bool) (h : recluster core err k n i cl cores = .ok (i', cl', cores', b)) :
    Partition k cl' ((List.range k).flatMap cl) ∧ (b = true → Settled core err k cl' cores') ∧ (b = false → i' = i + n) ∧ (b = true → i' < i + n) := by
  induction n generalizing i cl cores with
  | zero =>
    simp only [recluster, Res.ok.injEq, Prod.mk.injEq] at h
    obtain ⟨h1, h2, h3, h4⟩ := h
    subst h1 h2 h3 h4
    exact ⟨List.Perm.refl _, by simp, by simp, by simp⟩
  | succ n ih =>
    unfold recluster at h
    cases hc : forUpM 0 k (coresLoop core cl) cores with
    | fail => rw [hc] at h; simp at h
    | ub => rw [hc] at h; simp at h
    | ok c1 =>
      rw [hc] at h
      dsimp only at h
      have hspec := movePass_spec (fun p => nearest k (fun b => err p (c1 b)) 0) (fun p a => nearest k (fun b => err p (c1 b)) a) k
        (fun p a => nearest_indep _ _ _ _ hk) (fun p => (nearest_spec _ _ _ hk).1) cl
      rcases hm : movePass (fun p a => nearest k (fun b => err p (c1 b)) a) k cl with ⟨cl1, fl⟩
      rw [hm] at h hspec
      obtain ⟨s1, s2, s3⟩ := hspec
      cases fl with
      | true =>
        obtain ⟨r1, r2, r3, r4⟩ := ih (i+1) cl1 c1 h
        exact ⟨r1.trans s1, r2, fun hb => by have := r3 hb; omega, fun hb => by have := r4 hb; omega⟩
      | false =>
        simp only [Res.ok.injEq, Prod.mk.injEq] at h
        obtain ⟨h1, h2, h3, h4⟩ := h
        subst h1 h2 h3 h4
        refine ⟨s1, fun _ => ⟨?_, ?_⟩, by simp, fun _ => by omega⟩
        · have hcl : cl1 = cl := s3 rfl
          rw [hcl]
          exact cores_spec core k cl cores c1 hc
        · intro a ha p hp b hb
          have hN := s2 a ha p hp
          have := (nearest_spec k (fun b => err p (c1 b)) 0 hk).2.1 b hb
          rw [hN] at this
          exact this

/-! ## Initial clusters -/

/-- The search for the nearest seed of a point that is no seed. -/
theorem nearestSeed_spec (dist : P → P → K) (p : P) (seeds : List P) (hne : seeds ≠ []) :
    (p ∈ seeds → nearestSeed dist p seeds 0 none none = .ok none) ∧
    (p ∉ seeds → ∃ i s, nearestSeed dist p seeds 0 none none = .ok (some i) ∧ seeds[i]? = some s ∧ (∀ t ∈ seeds, dist p s ≤ dist p t) ∧
      ∀ j t, j < i → seeds[j]? = some t → dist p s < dist p t) := by
  have gen1 : ∀ (l : List P) i d c, p ∈ l → nearestSeed dist p l i d c = .ok none := by
    intro l
    induction l with
    | nil => intro i d c h; simp at h
    | cons s l ih =>
      intro i d c h
      unfold nearestSeed
      by_cases hp : p = s
      · rw [if_pos hp]
      · rw [if_neg hp]
        have : p ∈ l := (List.mem_cons.1 h).resolve_left hp
        split_ifs <;> exact ih _ _ _ this
  have gen2 : ∀ (l done : List P) (c : Nat) (s : P), p ∉ l → (done ++ l)[c]? = some s → c < done.length → (∀ t ∈ done, dist p s ≤ dist p t) →
      (∀ j t, j < c → (done ++ l)[j]? = some t → dist p s < dist p t) →
      ∃ i s', nearestSeed dist p l done.length (some (dist p s)) (some c) = .ok (some i) ∧ (done ++ l)[i]? = some s' ∧ (∀ t ∈ done ++ l, dist p s' ≤ dist p t) ∧
        ∀ j t, j < i → (done ++ l)[j]? = some t → dist p s' < dist p t := by
    intro l
    induction l with
    | nil => intro done c s _ h1 _ h2 h3; exact ⟨c, s, rfl, h1, by simpa using h2, h3⟩
    | cons x l ih =>
      intro done c s hp h1 hc h2 h3
      have hpx : p ≠ x := fun h => hp (by rw [h]; simp)
      have hpl : p ∉ l := fun h => hp (by simp [h])
      have eqd : done ++ x :: l = (done ++ [x]) ++ l := by simp
      have hlen : (done ++ [x]).length = done.length + 1 := by simp
      unfold nearestSeed
      rw [if_neg hpx]
      by_cases hd : dist p x < dist p s
      · rw [if_pos (show ltInf (dist p x) (some (dist p s)) from hd), eqd, ← hlen]
        refine ih (done ++ [x]) done.length x hpl ?_ (by simp) ?_ ?_
        · rw [List.append_assoc, List.getElem?_append_right (le_refl _)]; simp
        · intro t ht
          rcases List.mem_append.1 ht with ht | ht
          · exact hd.le.trans (h2 t ht)
          · rw [List.mem_singleton.1 ht]
        · intro j t hj ht
          rw [List.append_assoc, List.getElem?_append_left hj] at ht
          exact lt_of_lt_of_le hd (h2 t (List.mem_of_getElem? ht))
      · rw [if_neg (show ¬ ltInf (dist p x) (some (dist p s)) from hd), eqd, ← hlen]
        refine ih (done ++ [x]) c s hpl (by rw [← eqd]; exact h1) (by rw [hlen]; omega) ?_ (by rw [← eqd]; exact h3)
        intro t ht
        rcases List.mem_append.1 ht with ht | ht
        · exact h2 t ht
        · rw [List.mem_singleton.1 ht]; exact not_lt.1 hd
  refine ⟨gen1 seeds 0 none none, ?_⟩
  intro hp
  match seeds, hne, hp with
  | s :: l, _, hp =>
    have hps : p ≠ s := fun h => hp (by rw [h]; simp)
    have hpl : p ∉ l := fun h => hp (by simp [h])
    unfold nearestSeed
    rw [if_neg hps, if_pos (show ltInf (dist p s) none from trivial)]
    exact gen2 l [s] 0 s hpl (by simp) (by simp) (by simp) (by intro j t hj; omega)

/-- C68: the initial clusters of distinct seeds are a partition of the points, each point that is no seed with its nearest seed; the seed of every cluster is in it. -/
theorem initCluster_spec (dist : P → P → K) (seeds points : List P) (hne : seeds ≠ []) (hs : seeds.Nodup) (hp : points.Nodup) (hsub : ∀ s ∈ seeds, s ∈ points) :
    ∃ cl, initCluster dist seeds points (seedClusters seeds) = .ok cl ∧ Partition seeds.length cl points ∧
      (∀ i s, seeds[i]? = some s → s ∈ cl i) ∧ ∀ i < seeds.length, ∀ p ∈ cl i, ∃ s, seeds[i]? = some s ∧ (p = s ∨ (p ∉ seeds ∧ (∀ t ∈ seeds, dist p s ≤ dist p t) ∧
        ∀ j t, j < i → seeds[j]? = some t → dist p s < dist p t)) := by
  have gen : ∀ (l : List P) (cl : Nat → List P), ∃ cl', initCluster dist seeds l cl = .ok cl' ∧
      (∀ p, ∑ i ∈ Finset.range seeds.length, (cl' i).count p = (∑ i ∈ Finset.range seeds.length, (cl i).count p) + (l.filter fun p => p ∉ seeds).count p) ∧
      (∀ i, ∀ p ∈ cl i, p ∈ cl' i) ∧
      (∀ i, ∀ p ∈ cl' i, p ∈ cl i ∨ ∃ s, seeds[i]? = some s ∧ p ∉ seeds ∧ (∀ t ∈ seeds, dist p s ≤ dist p t) ∧ ∀ j t, j < i → seeds[j]? = some t → dist p s < dist p t) := by
    intro l
    induction l with
    | nil => intro cl; exact ⟨cl, rfl, by simp, fun _ _ h => h, fun _ _ h => .inl h⟩
    | cons p l ih =>
      intro cl
      unfold initCluster
      obtain ⟨g1, g2⟩ := nearestSeed_spec dist p seeds hne
      by_cases hps : p ∈ seeds
      · rw [g1 hps]
        obtain ⟨cl', e, i1, i2, i3⟩ := ih cl
        refine ⟨cl', e, ?_, i2, i3⟩
        intro q
        rw [i1, List.filter_cons_of_neg (by simpa using hps)]
      · obtain ⟨i, s, e, hi, hmin, hfirst⟩ := g2 hps
        rw [e]
        dsimp only
        obtain ⟨cl', e', i1, i2, i3⟩ := ih (upd cl i (cl i ++ [p]))
        have hil : i < seeds.length := by
          by_contra hc
          rw [List.getElem?_eq_none (by omega)] at hi
          simp at hi
        refine ⟨cl', e', ?_, ?_, ?_⟩
        · intro q
          rw [i1, List.filter_cons_of_pos (by simpa using hps), List.count_cons]
          have : ∀ j ∈ Finset.range seeds.length, (upd cl i (cl i ++ [p]) j).count q = (cl j).count q + (if j = i then (if p == q then 1 else 0) else 0) := by
            intro j _
            by_cases hji : j = i
            · subst hji; rw [upd_same, List.count_append, if_pos rfl, List.count_singleton]
            · rw [upd_ne _ _ hji, if_neg hji]; rfl
          rw [Finset.sum_congr rfl this, Finset.sum_add_distrib, Finset.sum_ite_eq' (Finset.range seeds.length) i, if_pos (Finset.mem_range.2 hil)]
          omega
        · intro j q hq
          refine i2 j q ?_
          by_cases hji : j = i
          · subst hji; rw [upd_same]; exact List.mem_append_left _ hq
          · rw [upd_ne _ _ hji]; exact hq
        · intro j q hq
          rcases i3 j q hq with h | h
          · by_cases hji : j = i
            · subst hji
              rw [upd_same] at h
              rcases List.mem_append.1 h with h | h
              · exact .inl h
              · rw [List.mem_singleton.1 h]; exact .inr ⟨s, hi, hps, hmin, hfirst⟩
            · rw [upd_ne _ _ hji] at h; exact .inl h
          · exact .inr h
  obtain ⟨cl, e, i1, i2, i3⟩ := gen points (seedClusters seeds)
  have hseed : (List.range seeds.length).flatMap (seedClusters seeds) = seeds := by
    have : ∀ l : List P, (List.range l.length).flatMap (fun i => (l[i]?).toList) = l := by
      intro l
      induction l with
      | nil => rfl
      | cons x l ih =>
        rw [List.length_cons, List.range_succ_eq_map, List.flatMap_cons, List.flatMap_map]
        simpa using ih
    exact this seeds
  refine ⟨cl, e, ?_, ?_, ?_⟩
  · refine (flat_append _ _ _ _ i1).trans ?_
    rw [hseed]
    have h1 : (points.filter (fun p => p ∈ seeds)).Perm seeds := by
      rw [List.perm_ext_iff_of_nodup (hp.filter _) hs]
      intro q
      simp only [List.mem_filter, decide_eq_true_eq]
      exact ⟨fun h => h.2, fun h => ⟨hsub q h, h⟩⟩
    have h2 := List.filter_append_perm (fun p => decide (p ∈ seeds)) points
    refine List.Perm.trans ?_ h2
    refine (h1.symm.append_right _).trans (List.Perm.of_eq ?_)
    congr 1
    exact List.filter_congr fun q _ => by simp
  · intro i s hi
    exact i2 i s (by unfold seedClusters; rw [hi]; simp)
  · intro i hi q hq
    rcases i3 i q hq with h | ⟨s, h1, h2⟩
    · unfold seedClusters at h
      rw [List.getElem?_eq_getElem hi] at h ⊢
      simp only [Option.toList_some, List.mem_singleton] at h
      exact ⟨_, rfl, .inl h⟩
    · exact ⟨s, h1, .inr h2⟩

theorem minDist_le (dist : P → P → K) (p s : P) (seeds : List P) : ∀ t ∈ s :: seeds, minDist dist p s seeds ≤ dist p t := by
  have gen : ∀ (l : List P) (m : K), l.foldl (fun m s => if dist p s < m then dist p s else m) m ≤ m ∧
      ∀ t ∈ l, l.foldl (fun m s => if dist p s < m then dist p s else m) m ≤ dist p t := by
    intro l
    induction l with
    | nil => intro m; simp
    | cons x l ih =>
      intro m
      rw [List.foldl_cons]
      obtain ⟨a, b⟩ := ih (if dist p x < m then dist p x else m)
      have h1 : (if dist p x < m then dist p x else m) ≤ m := by split_ifs with h; exact h.le; exact le_refl _
      have h2 : (if dist p x < m then dist p x else m) ≤ dist p x := by split_ifs with h; exact le_refl _; exact not_lt.1 h
      refine ⟨a.trans h1, ?_⟩
      intro t ht
      rcases List.mem_cons.1 ht with rfl | ht
      · exact a.trans h2
      · exact b t ht
  obtain ⟨a, b⟩ := gen seeds (dist p s)
  intro t ht
  rcases List.mem_cons.1 ht with rfl | ht
  · exact a
  · exact b t ht

theorem minDist_mem (dist : P → P → K) (p s : P) (seeds : List P) : ∃ t ∈ s :: seeds, minDist dist p s seeds = dist p t := by
  have gen : ∀ (l : List P) (m : K), l.foldl (fun m s => if dist p s < m then dist p s else m) m = m ∨
      ∃ t ∈ l, l.foldl (fun m s => if dist p s < m then dist p s else m) m = dist p t := by
    intro l
    induction l with
    | nil => intro m; simp
    | cons x l ih =>
      intro m
      rw [List.foldl_cons]
      rcases ih (if dist p x < m then dist p x else m) with h | ⟨t, ht, h⟩
      · rw [h]
        split_ifs
        · exact .inr ⟨x, by simp, rfl⟩
        · exact .inl rfl
      · exact .inr ⟨t, by simp [ht], h⟩
  rcases gen seeds (dist p s) with h | ⟨t, ht, h⟩
  · exact ⟨s, by simp, h⟩
  · exact ⟨t, by simp [ht], h⟩

theorem farthest_spec (f : P → K) (l : List P) : (∀ p, farthest f l 0 none = some p → p ∈ l ∧ 0 < f p ∧ ∀ q ∈ l, f q ≤ f p) ∧ (farthest f l 0 none = none → ∀ q ∈ l, f q ≤ 0) := by
  have gen : ∀ (l done : List P) (d : K) (r : Option P), (∀ p, r = some p → p ∈ done ∧ 0 < f p ∧ d = f p) → (r = none → d = 0) → (∀ q ∈ done, f q ≤ d) →
      (∀ p, farthest f l d r = some p → p ∈ done ++ l ∧ 0 < f p ∧ ∀ q ∈ done ++ l, f q ≤ f p) ∧ (farthest f l d r = none → ∀ q ∈ done ++ l, f q ≤ 0) := by
    intro l
    induction l with
    | nil =>
      intro done d r h1 h2 h3
      refine ⟨?_, ?_⟩
      · intro p hp
        obtain ⟨a, b, c⟩ := h1 p hp
        exact ⟨by simpa using a, b, by rw [← c]; simpa using h3⟩
      · intro hr; rw [← h2 hr]; simpa using h3
    | cons x l ih =>
      intro done d r h1 h2 h3
      have eqd : done ++ x :: l = (done ++ [x]) ++ l := by simp
      unfold farthest
      rw [eqd]
      have hd : 0 ≤ d := by
        cases r with
        | none => rw [h2 rfl]
        | some p => obtain ⟨_, b, c⟩ := h1 p rfl; rw [c]; exact b.le
      by_cases hc : f x > d
      · rw [if_pos hc]
        refine ih (done ++ [x]) (f x) (some x) ?_ (by simp) ?_
        · intro p hp
          simp only [Option.some.injEq] at hp
          subst hp
          exact ⟨by simp, lt_of_le_of_lt hd hc, rfl⟩
        · intro q hq
          rcases List.mem_append.1 hq with hq | hq
          · exact (h3 q hq).trans hc.le
          · rw [List.mem_singleton.1 hq]
      · rw [if_neg hc]
        refine ih (done ++ [x]) d r ?_ h2 ?_
        · intro p hp; obtain ⟨a, b, c⟩ := h1 p hp; exact ⟨by simp [a], b, c⟩
        · intro q hq
          rcases List.mem_append.1 hq with hq | hq
          · exact h3 q hq
          · rw [List.mem_singleton.1 hq]; exact not_lt.1 hc
  simpa using gen l [] 0 none (by simp) (fun _ => rfl) (by simp)

/-- Specification: the seeds are points at positive distances from one another. -/
def Apart (dist : P → P → K) (points seeds : List P) : Prop := (∀ s ∈ seeds, s ∈ points) ∧ seeds.Pairwise fun s t => 0 < dist t s

theorem Apart.nodup {dist : P → P → K} (h0 : ∀ p, dist p p = 0) {points seeds : List P} (h : Apart dist points seeds) : seeds.Nodup :=
  h.2.imp fun {a b} hab hc => by rw [hc, h0] at hab; exact lt_irrefl _ hab

theorem seedsKKZ_spec (dist : P → P → K) (points : List P) (s0 : P) (n : Nat) (seeds out : List P) (hs : Apart dist points (s0 :: seeds))
    (h : seedsKKZ dist points s0 n seeds = .ok out) : Apart dist points out ∧ out.length = n + 1 + seeds.length ∧ out ≠ [] := by
  induction n generalizing seeds with
  | zero =>
    simp only [seedsKKZ, Res.ok.injEq] at h
    rw [← h]; exact ⟨hs, by simp; omega, by simp⟩
  | succ n ih =>
    unfold seedsKKZ at h
    cases hf : farthest (fun p => minDist dist p s0 seeds) points 0 none with
    | none => rw [hf] at h; simp at h
    | some p =>
      rw [hf] at h
      obtain ⟨f1, f2, _⟩ := (farthest_spec (fun p => minDist dist p s0 seeds) points).1 p hf
      have hA : Apart dist points (s0 :: (seeds ++ [p])) := by
        refine ⟨?_, ?_⟩
        · intro s hs'
          rw [← List.cons_append] at hs'
          rcases List.mem_append.1 hs' with hs' | hs'
          · exact hs.1 s hs'
          · rw [List.mem_singleton.1 hs']; exact f1
        · rw [← List.cons_append, List.pairwise_append]
          refine ⟨hs.2, by simp, ?_⟩
          intro a ha b hb
          rw [List.mem_singleton.1 hb]
          exact lt_of_lt_of_le f2 (minDist_le dist p s0 seeds a ha)
      obtain ⟨r1, r2, r3⟩ := ih (seeds ++ [p]) hA h
      exact ⟨r1, by rw [r2]; simp; omega, r3⟩

/-- C68, method of Katsavounidis, Kuo and Zhang: whenever K-means returns, the clusters are a partition of the points, and settled clusters are those of the nearest cores. -/
theorem zKMeansKKZ_spec_partial (core : List P → Res C) (err : P → C → K) (dist : P → P → K) (h0 : ∀ p, dist p p = 0) (d0 : P → K) (points : List P) (hp : points.Nodup) (k : Nat)
    (cores : Nat → C) (i : Nat) (cl : Nat → List P) (cores' : Nat → C) (b : Bool) (h : zKMeansKKZ core err dist d0 points k cores = .ok (i, cl, cores', b)) :
    Partition k cl points ∧ (b = true → Settled core err k cl cores') ∧ (b = false → i = 10000) := by
  unfold zKMeansKKZ at h
  cases hi : initKKZ dist d0 points k with
  | fail => rw [hi] at h; simp at h
  | ub => rw [hi] at h; simp at h
  | ok cl0 =>
    rw [hi] at h
    dsimp only at h
    unfold initKKZ at hi
    split_ifs at hi with he
    cases hf : farthest d0 points 0 none with
    | none => rw [hf] at hi; cases k <;> simp at hi
    | some s0 =>
      rw [hf] at hi
      cases k with
      | zero => simp at hi
      | succ k =>
        dsimp only at hi
        cases hk : seedsKKZ dist points s0 k [] with
        | fail => rw [hk] at hi; simp at hi
        | ub => rw [hk] at hi; simp at hi
        | ok seeds =>
          rw [hk] at hi
          dsimp only at hi
          obtain ⟨a1, a2, a3⟩ := seedsKKZ_spec dist points s0 k [] seeds ⟨by simpa using ((farthest_spec d0 points).1 s0 hf).1, by simp⟩ hk
          obtain ⟨cl1, e1, p1, _⟩ := initCluster_spec dist seeds points a3 (a1.nodup h0) hp a1.1
          rw [e1] at hi
          simp only [Res.ok.injEq] at hi
          subst hi
          simp only [List.length_nil, Nat.add_zero] at a2
          rw [a2] at p1
          obtain ⟨r1, r2, r3, _⟩ := recluster_spec core err (k+1) (by omega) 10000 0 cl1 cores i cl cores' b h
          exact ⟨r1.trans p1, r2, fun hb => by rw [r3 hb]⟩

end order

section field
variable {K P C : Type*} [Field K] [LinearOrder K] [IsStrictOrderedRing K] [DecidableEq P]

theorem roulette_spec (u : K) (hu : 0 < u) (l : List (P × K)) (rate : K) (hr : rate < u) (p : P) (h : roulette u l rate = .ok p) : ∃ s, (p, s) ∈ l ∧ 0 < s := by
  induction l generalizing rate with
  | nil => simp [roulette] at h
  | cons x l ih =>
    obtain ⟨q, s⟩ := x
    unfold roulette at h
    split_ifs at h with hc
    · simp only [Res.ok.injEq] at h
      subst h
      exact ⟨s, by simp, by linarith⟩
    · obtain ⟨s', h1, h2⟩ := ih (rate + s) (not_le.1 hc) h
      exact ⟨s', by simp [h1], h2⟩

theorem roulette_total (u : K) (l : List (P × K)) (rate : K) (hl : l ≠ []) (h : u ≤ rate + (l.map Prod.snd).sum) : ∃ p, roulette u l rate = .ok p := by
  induction l generalizing rate with
  | nil => exact absurd rfl hl
  | cons x l ih =>
    obtain ⟨q, s⟩ := x
    unfold roulette
    split_ifs with hc
    · exact ⟨q, rfl⟩
    · simp only [List.map_cons, List.sum_cons] at h
      have hl' : l ≠ [] := by
        intro h0
        rw [h0] at h
        simp only [List.map_nil, List.sum_nil, add_zero] at h
        exact hc h
      exact ih (rate + s) hl' (by linarith)

/-- The score of a point is positive only when it is away from all seeds. -/
theorem pickPP_spec (tol : K) (dist : P → P → K) (hd : ∀ p q, 0 ≤ dist p q) (points : List P) (s0 : P) (seeds : List P) (u : K) (hu : 0 < u) (p : P)
    (h : pickPP tol dist points s0 seeds u = .ok p) : p ∈ points ∧ ∀ s ∈ s0 :: seeds, 0 < dist p s := by
  unfold pickPP at h
  dsimp only at h
  obtain ⟨s, hm, hs⟩ := roulette_spec u hu _ 0 hu p h
  have hnn : ∀ q, 0 ≤ minDist dist q s0 seeds := fun q => by obtain ⟨t, _, e⟩ := minDist_mem dist q s0 seeds; rw [e]; exact hd _ _
  have hsum : 0 ≤ (points.map fun p => minDist dist p s0 seeds * minDist dist p s0 seeds).sum := by
    refine List.sum_nonneg ?_
    intro x hx
    obtain ⟨q, _, rfl⟩ := List.mem_map.1 hx
    exact mul_self_nonneg _
  have hz : ∀ g : P → K, (p, s) ∈ points.zip (points.map g) → p ∈ points ∧ s = g p := by
    intro g hz
    clear hm h hsum
    induction points with
    | nil => simp at hz
    | cons x l ih =>
      rw [List.map_cons, List.zip_cons_cons] at hz
      rcases List.mem_cons.1 hz with hz | hz
      · simp only [Prod.mk.injEq] at hz
        obtain ⟨rfl, rfl⟩ := hz
        exact ⟨by simp, rfl⟩
      · obtain ⟨a, b⟩ := ih hz
        exact ⟨by simp [a], b⟩
  have hpos : p ∈ points ∧ 0 < minDist dist p s0 seeds := by
    split_ifs at hm
    · obtain ⟨a, b⟩ := hz _ hm
      refine ⟨a, lt_of_le_of_ne (hnn p) fun h0 => ?_⟩
      rw [b, ← h0] at hs; simp at hs
    · rw [List.map_map] at hm
      obtain ⟨a, b⟩ := hz _ hm
      refine ⟨a, lt_of_le_of_ne (hnn p) fun h0 => ?_⟩
      rw [b] at hs
      simp [← h0] at hs
  exact ⟨hpos.1, fun t ht => lt_of_lt_of_le hpos.2 (minDist_le dist p s0 seeds t ht)⟩

theorem seedsPP_spec (tol : K) (dist : P → P → K) (hd : ∀ p q, 0 ≤ dist p q) (points : List P) (s0 : P) (U : Nat → K) (hU : ∀ i, 0 < U i) (n pos : Nat) (seeds out : List P)
    (hs : Apart dist points (s0 :: seeds)) (h : seedsPP tol dist points s0 U n pos seeds = .ok out) : Apart dist points out ∧ out.length = n + 1 + seeds.length ∧ out ≠ [] := by
  induction n generalizing seeds pos with
  | zero =>
    simp only [seedsPP, Res.ok.injEq] at h
    rw [← h]; exact ⟨hs, by simp; omega, by simp⟩
  | succ n ih =>
    unfold seedsPP at h
    cases hf : pickPP tol dist points s0 seeds (U pos) with
    | fail => rw [hf] at h; simp at h
    | ub => rw [hf] at h; simp at h
    | ok p =>
      rw [hf] at h
      obtain ⟨f1, f2⟩ := pickPP_spec tol dist hd points s0 seeds (U pos) (hU pos) p hf
      have hA : Apart dist points (s0 :: (seeds ++ [p])) := by
        refine ⟨?_, ?_⟩
        · intro s hs'
          rw [← List.cons_append] at hs'
          rcases List.mem_append.1 hs' with hs' | hs'
          · exact hs.1 s hs'
          · rw [List.mem_singleton.1 hs']; exact f1
        · rw [← List.cons_append, List.pairwise_append]
          refine ⟨hs.2, by simp, ?_⟩
          intro a ha b hb
          rw [List.mem_singleton.1 hb]
          exact f2 a ha
      obtain ⟨r1, r2, r3⟩ := ih (pos+1) (seeds ++ [p]) hA h
      exact ⟨r1, by rw [r2]; simp; omega, r3⟩

/-- The initial clusters of K-means++. -/
theorem initPP_spec (tol : K) (dist : P → P → K) (h0 : ∀ p, dist p p = 0) (hd : ∀ p q, 0 ≤ dist p q) (rnd : Nat → Nat → Nat) (U : Nat → K) (hU : ∀ i, 0 < U i) (pos : Nat)
    (points : List P) (hp : points.Nodup) (k : Nat) (cl : Nat → List P) (h : initPP tol dist rnd U pos points k = .ok cl) :
    0 < k ∧ Partition k cl points ∧ ∃ seeds, Apart dist points seeds ∧ seeds.length = k ∧ (∀ i s, seeds[i]? = some s → s ∈ cl i) ∧
      ∀ i < seeds.length, ∀ p ∈ cl i, ∃ s, seeds[i]? = some s ∧ (p = s ∨ (p ∉ seeds ∧ (∀ t ∈ seeds, dist p s ≤ dist p t) ∧
        ∀ j t, j < i → seeds[j]? = some t → dist p s < dist p t)) := by
  unfold initPP at h
  split_ifs at h with he
  cases hf : points[rnd pos points.length]? with
  | none => rw [hf] at h; cases k <;> simp at h
  | some s0 =>
    rw [hf] at h
    cases k with
    | zero => simp at h
    | succ k =>
      dsimp only at h
      cases hk : seedsPP tol dist points s0 U k (pos+1) [] with
      | fail => rw [hk] at h; simp at h
      | ub => rw [hk] at h; simp at h
      | ok seeds =>
        rw [hk] at h
        dsimp only at h
        obtain ⟨a1, a2, a3⟩ := seedsPP_spec tol dist hd points s0 U hU k (pos+1) [] seeds ⟨by simpa using List.mem_of_getElem? hf, by simp⟩ hk
        obtain ⟨cl1, e1, p1, p2, p3⟩ := initCluster_spec dist seeds points a3 (a1.nodup h0) hp a1.1
        rw [e1] at h
        simp only [Res.ok.injEq] at h
        subst h
        simp only [List.length_nil, Nat.add_zero] at a2
        rw [a2] at p1
        exact ⟨by omega, p1, seeds, a1, a2, p2, p3⟩

/-- C68, K-means++: whenever K-means returns, and the random numbers of the roulette are positive, the clusters are a partition of the points, and settled clusters are those of
the nearest cores. -/
theorem zKMeans_spec_partial (tol : K) (core : List P → Res C) (err : P → C → K) (dist : P → P → K) (h0 : ∀ p, dist p p = 0) (hd : ∀ p q, 0 ≤ dist p q)
    (rnd : Nat → Nat → Nat) (U : Nat → K) (hU : ∀ i, 0 < U i) (pos : Nat) (points : List P) (hp : points.Nodup) (k : Nat) (cores : Nat → C) (i : Nat) (cl : Nat → List P)
    (cores' : Nat → C) (b : Bool) (h : zKMeans tol core err dist rnd U pos points k cores = .ok (i, cl, cores', b)) :
    Partition k cl points ∧ (b = true → Settled core err k cl cores') ∧ (b = false → i = 10000) := by
  unfold zKMeans at h
  cases hi : initPP tol dist rnd U pos points k with
  | fail => rw [hi] at h; simp at h
  | ub => rw [hi] at h; simp at h
  | ok cl0 =>
    rw [hi] at h
    dsimp only at h
    obtain ⟨hk, p1, _⟩ := initPP_spec tol dist h0 hd rnd U hU pos points hp k cl0 hi
    obtain ⟨r1, r2, r3, _⟩ := recluster_spec core err k hk 10000 0 cl0 cores i cl cores' b h
    exact ⟨r1.trans p1, r2, fun hb => by rw [r3 hb]⟩

/-- C68, when the initial clusters exist: as long as fewer seeds than clusters leave a sum of squared distances above the tolerance, K-means++ finds its seeds for every sequence of
random numbers of `(0,1]`. -/
theorem initPP_total (tol : K) (htol : 0 ≤ tol) (dist : P → P → K) (h0 : ∀ p, dist p p = 0) (hd : ∀ p q, 0 ≤ dist p q) (rnd : Nat → Nat → Nat) (hr : ∀ k m, 0 < m → rnd k m < m)
    (U : Nat → K) (hU : ∀ i, 0 < U i ∧ U i ≤ 1) (pos : Nat) (points : List P) (hp : points.Nodup) (hne : points ≠ []) (k : Nat) (hk : 0 < k)
    (hspread : ∀ s0 seeds, Apart dist points (s0 :: seeds) → seeds.length + 1 < k → tol < (points.map fun p => minDist dist p s0 seeds * minDist dist p s0 seeds).sum) :
    ∃ cl, initPP tol dist rnd U pos points k = .ok cl := by
  have hlt := hr pos points.length (List.length_pos_of_ne_nil hne)
  unfold initPP
  rw [if_neg hne, List.getElem?_eq_getElem hlt]
  obtain ⟨k, rfl⟩ : ∃ k', k = k' + 1 := ⟨k - 1, by omega⟩
  dsimp only
  have hall : ∀ n pos' (s0 : P) seeds, Apart dist points (s0 :: seeds) → seeds.length + n ≤ k → ∃ out, seedsPP tol dist points s0 U n pos' seeds = .ok out := by
    intro n
    induction n with
    | zero => intro pos' s0 seeds _ _; exact ⟨_, rfl⟩
    | succ n ih =>
      intro pos' s0 seeds hA hl
      have hsum := hspread s0 seeds hA (by omega)
      have hpick : ∃ p, pickPP tol dist points s0 seeds (U pos') = .ok p := by
        unfold pickPP
        dsimp only
        rw [if_neg (not_le.2 (lt_of_lt_of_le hsum (le_abs_self _)))]
        have hlen : points.length ≤ ((points.map fun p => minDist dist p s0 seeds * minDist dist p s0 seeds).map
            (· / (points.map fun p => minDist dist p s0 seeds * minDist dist p s0 seeds).sum)).length := by simp
        refine roulette_total _ _ 0 (by
          intro hz
          have := congrArg List.length hz
          simp only [List.length_zip, List.length_map, min_self, List.length_nil] at this
          exact hne (List.length_eq_zero_iff.1 this)) ?_
        rw [List.map_snd_zip (by simp)]
        have hdiv : ((points.map fun p => minDist dist p s0 seeds * minDist dist p s0 seeds).map (· / (points.map fun p => minDist dist p s0 seeds * minDist dist p s0 seeds).sum)).sum = 1 := by
          generalize (points.map fun p => minDist dist p s0 seeds * minDist dist p s0 seeds) = l at hsum ⊢
          have : (l.map (· / l.sum)).sum = l.sum / l.sum := by
            have gen : ∀ (c : K) (l : List K), (l.map (· / c)).sum = l.sum / c := by
              intro c l
              induction l with
              | nil => simp
              | cons x l ih => rw [List.map_cons, List.sum_cons, ih, List.sum_cons]; ring
            exact gen _ _
          rw [this, div_self (lt_of_le_of_lt htol hsum).ne']
        rw [hdiv, zero_add]
        exact (hU pos').2
      obtain ⟨p, hpk⟩ := hpick
      unfold seedsPP
      rw [hpk]
      obtain ⟨f1, f2⟩ := pickPP_spec tol dist hd points s0 seeds (U pos') (hU pos').1 p hpk
      refine ih (pos'+1) s0 (seeds ++ [p]) ⟨?_, ?_⟩ (by simp; omega)
      · intro s hs'
        rw [← List.cons_append] at hs'
        rcases List.mem_append.1 hs' with hs' | hs'
        · exact hA.1 s hs'
        · rw [List.mem_singleton.1 hs']; exact f1
      · rw [← List.cons_append, List.pairwise_append]
        refine ⟨hA.2, by simp, ?_⟩
        intro a ha b hb
        rw [List.mem_singleton.1 hb]
        exact f2 a ha
  have hA0 : Apart dist points (points[rnd pos points.length] :: []) := ⟨by simp, by simp⟩
  obtain ⟨out, hout⟩ := hall k (pos+1) _ [] hA0 (by simp)
  rw [hout]
  dsimp only
  obtain ⟨a1, a2, a3⟩ := seedsPP_spec tol dist hd points _ U (fun i => (hU i).1) k (pos+1) [] out hA0 hout
  obtain ⟨cl1, e1, _⟩ := initCluster_spec dist out points a3 (a1.nodup h0) hp a1.1
  exact ⟨cl1, e1⟩

/-- With a core for every list, even the empty one, reclustering always returns. -/
theorem recluster_total (core : List P → Res C) (hc : ∀ l, ∃ c, core l = .ok c) (err : P → C → K) (k n i : Nat) (cl : Nat → List P) (cores : Nat → C) :
    ∃ r, recluster core err k n i cl cores = .ok r := by
  induction n generalizing i cl cores with
  | zero => exact ⟨_, rfl⟩
  | succ n ih =>
    unfold recluster
    obtain ⟨c1, e1⟩ := cores_total core k cl cores (fun a _ => hc (cl a))
    rw [e1]
    dsimp only
    rcases movePass (fun p a => nearest k (fun b => err p (c1 b)) a) k cl with ⟨cl1, fl⟩
    cases fl with
    | true => exact ih (i+1) cl1 c1
    | false => exact ⟨_, rfl⟩

/-! ## The sum of errors -/

/-- Specification: the sum of the errors of all points from the cores of their clusters. -/
def total (err : P → C → K) (k : Nat) (cl : Nat → List P) (cores : Nat → C) : K := ((List.range k).map fun a => ((cl a).map fun p => err p (cores a)).sum).sum

/-- Specification: no other core gives a smaller sum of errors. -/
def Minimises (core : List P → Res C) (err : P → C → K) : Prop := ∀ l c c', core l = .ok c → (l.map fun p => err p c).sum ≤ (l.map fun p => err p c').sum

theorem total_flat (err : P → C → K) (k : Nat) (cl : Nat → List P) (cores : Nat → C) (N : P → Nat) (h : ∀ a < k, ∀ p ∈ cl a, N p = a) :
    total err k cl cores = (((List.range k).flatMap cl).map fun p => err p (cores (N p))).sum := by
  unfold total
  induction k with
  | zero => rfl
  | succ k ih =>
    rw [List.range_succ, List.map_append, List.sum_append, ih (fun a ha => h a (by omega)), List.flatMap_append, List.map_append, List.sum_append]
    congr 1
    simp only [List.map_cons, List.map_nil, List.sum_cons, List.sum_nil, add_zero, List.flatMap_cons, List.flatMap_nil, List.append_nil]
    exact congrArg List.sum (List.map_congr_left fun p hp => by rw [h k (by omega) p hp])

theorem total_ge (err : P → C → K) (k : Nat) (hk : 0 < k) (cl : Nat → List P) (cores : Nat → C) :
    (((List.range k).flatMap cl).map fun p => err p (cores (nearest k (fun b => err p (cores b)) 0))).sum ≤ total err k cl cores := by
  have gen : ∀ n ≤ k, (((List.range n).flatMap cl).map fun p => err p (cores (nearest k (fun b => err p (cores b)) 0))).sum ≤
      ((List.range n).map fun a => ((cl a).map fun p => err p (cores a)).sum).sum := by
    intro n
    induction n with
    | zero => intro _; simp
    | succ n ih =>
      intro hn
      rw [List.range_succ, List.map_append, List.sum_append, List.flatMap_append, List.map_append, List.sum_append]
      refine add_le_add (ih (by omega)) ?_
      simp only [List.map_cons, List.map_nil, List.sum_cons, List.sum_nil, add_zero, List.flatMap_cons, List.flatMap_nil, List.append_nil]
      exact List.sum_le_sum fun p _ => (nearest_spec k (fun b => err p (cores b)) 0 hk).2.1 n (by omega)
  exact gen k (le_refl _)

/-- C99: reclustering never ends with a larger sum of errors than it started with, whatever cores the start is measured with. -/
theorem recluster_descent (core : List P → Res C) (err : P → C → K) (hmin : Minimises core err) (k : Nat) (hk : 0 < k) (n i : Nat) (cl : Nat → List P) (cores c0 : Nat → C)
    (i' : Nat) (cl' : Nat → List P) (cores' : Nat → C) (b : Bool) (hn : 0 < n) (h : recluster core err k n i cl cores = .ok (i', cl', cores', b)) :
    total err k cl' cores' ≤ total err k cl c0 := by
  induction n generalizing i cl cores c0 with
  | zero => omega
  | succ n ih =>
    unfold recluster at h
    cases hc : forUpM 0 k (coresLoop core cl) cores with
    | fail => rw [hc] at h; simp at h
    | ub => rw [hc] at h; simp at h
    | ok c1 =>
      rw [hc] at h
      dsimp only at h
      have h1 : total err k cl c1 ≤ total err k cl c0 := by
        unfold total
        refine List.sum_le_sum fun a ha => ?_
        exact hmin (cl a) (c1 a) (c0 a) (cores_spec core k cl cores c1 hc a (List.mem_range.1 ha))
      have hspec := movePass_spec (fun p => nearest k (fun b => err p (c1 b)) 0) (fun p a => nearest k (fun b => err p (c1 b)) a) k
        (fun p a => nearest_indep _ _ _ _ hk) (fun p => (nearest_spec _ _ _ hk).1) cl
      rcases hm : movePass (fun p a => nearest k (fun b => err p (c1 b)) a) k cl with ⟨cl1, fl⟩
      rw [hm] at h hspec
      obtain ⟨s1, s2, s3⟩ := hspec
      have h2 : total err k cl1 c1 ≤ total err k cl c1 := by
        rw [total_flat err k cl1 c1 _ s2, (s1.map _).sum_eq]
        exact total_ge err k hk cl c1
      cases fl with
      | true =>
        by_cases hn0 : n = 0
        · subst hn0
          simp only [recluster, Res.ok.injEq, Prod.mk.injEq] at h
          obtain ⟨_, e2, e3, _⟩ := h
          rw [← e2, ← e3]
          exact h2.trans h1
        · exact (ih (i+1) cl1 c1 c1 (by omega) h).trans (h2.trans h1)
      | false =>
        simp only [Res.ok.injEq, Prod.mk.injEq] at h
        obtain ⟨_, e2, e3, _⟩ := h
        rw [← e2, ← e3]
        exact h2.trans h1

/-- C99: the mean minimises the sum of squared distances, so that K-means with its default methods falls under the theorem above. -/
theorem mean_minimises (tol : K) (htol : 0 ≤ tol) (htol1 : tol < 1) (n : Nat) [DecidableEq (Nat → K)] :
    Minimises (fun l : List (Nat → K) => .ok (Stat.zVecListMean tol n l).1) (fun p c => ∑ j ∈ Finset.range n, (p j - c j) ^ 2) := by
  intro l c c' hc
  simp only [Res.ok.injEq] at hc
  by_cases hl : l = []
  · subst hl; simp
  have hspec := (Stat.zVecListMean_spec tol htol1 n l hl).2
  have hlen : (0 : K) < (l.length : K) := by exact_mod_cast List.length_pos_of_ne_nil hl
  -- one coordinate
  have one : ∀ (f : (Nat → K) → K) (l : List (Nat → K)) (x y : K), (l.map fun p => (f p - y) ^ 2).sum =
      (l.map fun p => (f p - x) ^ 2).sum + 2 * (x - y) * ((l.map f).sum - l.length * x) + l.length * (x - y) ^ 2 := by
    intro f l x y
    induction l with
    | nil => simp
    | cons p l ih => simp only [List.map_cons, List.sum_cons, List.length_cons, Nat.cast_add, Nat.cast_one]; rw [ih]; ring
  have swap : ∀ (l : List (Nat → K)) (c : Nat → K), (l.map fun p => ∑ j ∈ Finset.range n, (p j - c j) ^ 2).sum = ∑ j ∈ Finset.range n, (l.map fun p => (p j - c j) ^ 2).sum := by
    intro l c
    induction l with
    | nil => simp
    | cons p l ih => simp only [List.map_cons, List.sum_cons]; rw [ih, Finset.sum_add_distrib]
  rw [swap, swap]
  refine Finset.sum_le_sum fun j hj => ?_
  have hcj : c j = (l.map fun v => v j).sum / l.length := by rw [← hc]; exact hspec j (Finset.mem_range.1 hj)
  have hz : (l.map fun v => v j).sum - l.length * c j = 0 := by rw [hcj, mul_div_cancel₀ _ hlen.ne']; ring
  rw [one (fun p => p j) l (c j) (c' j), hz]
  have : 0 ≤ (l.length : K) * (c j - c' j) ^ 2 := mul_nonneg hlen.le (sq_nonneg _)
  linarith

/-! ## K-medoids -/

/-- The medoid is a point of the cluster, and no other has a smaller sum of distances. -/
theorem medoid_spec (dist : P → P → K) (l : List P) (c : P) (h : medoid dist l = .ok c) :
    c ∈ l ∧ ∀ q ∈ l, (l.map fun p => dist p c).sum ≤ (l.map fun p => dist p q).sum := by
  match l, h with
  | t :: l, h =>
    simp only [medoid, Res.ok.injEq] at h
    generalize hf : (fun p => ((t :: l).map fun q => dist q p).sum) = f at h
    have gen : ∀ (rest done : List P) (st : P × Option K), (done = [] ∧ st.2 = none) ∨ (st.1 ∈ done ∧ st.2 = some (f st.1) ∧ ∀ q ∈ done, f st.1 ≤ f q) → done ++ rest ≠ [] →
        (rest.foldl (medoidStep f) st).1 ∈ done ++ rest ∧ ∀ q ∈ done ++ rest, f (rest.foldl (medoidStep f) st).1 ≤ f q := by
      intro rest
      induction rest with
      | nil =>
        rintro done ⟨c, d⟩ h1 h2
        rcases h1 with ⟨h1, _⟩ | ⟨h1, _, h3⟩
        · rw [h1] at h2; simp at h2
        · simpa using ⟨h1, h3⟩
      | cons x rest ih =>
        rintro done ⟨c, d⟩ h1 h2
        rw [List.foldl_cons, show done ++ x :: rest = (done ++ [x]) ++ rest by simp]
        refine ih (done ++ [x]) _ (.inr ?_) (by simp)
        unfold medoidStep
        dsimp only at h1 ⊢
        rcases h1 with ⟨h1, h3⟩ | ⟨h1, h3, h4⟩
        · rw [h3, if_pos (show ltInf (f x) none from trivial), h1]
          simp
        · rw [h3]
          by_cases hc : f x < f c
          · rw [if_pos (show ltInf (f x) (some (f c)) from hc)]
            refine ⟨by simp, rfl, ?_⟩
            intro q hq
            rcases List.mem_append.1 hq with hq | hq
            · exact hc.le.trans (h4 q hq)
            · rw [List.mem_singleton.1 hq]
          · rw [if_neg (show ¬ ltInf (f x) (some (f c)) from hc)]
            refine ⟨by simp [h1], rfl, ?_⟩
            intro q hq
            rcases List.mem_append.1 hq with hq | hq
            · exact h4 q hq
            · rw [List.mem_singleton.1 hq]; exact not_lt.1 hc
    have := gen (t :: l) [] (t, none) (.inl ⟨rfl, rfl⟩) (by simp)
    rw [h] at this
    rw [← hf] at this
    simpa using this

theorem medoid_total (dist : P → P → K) (l : List P) (h : l ≠ []) : ∃ c, medoid dist l = .ok c := by
  match l, h with
  | t :: l, _ => exact ⟨_, rfl⟩

variable {V : Type*}

/-- No cluster is empty, and points of the same value are in the same cluster. -/
def Sound (val : P → V) (k : Nat) (cl : Nat → List P) : Prop :=
  (∀ a < k, cl a ≠ []) ∧ ∀ a < k, ∀ b < k, ∀ p ∈ cl a, ∀ q ∈ cl b, val p = val q → a = b

/-- K-medoids never meets an empty cluster, whose medoid would not be defined. -/
theorem recluster_medoid_total (val : P → V) (E : V → V → K) (hE : ∀ x y, 0 ≤ E x y) (hE0 : ∀ x y, E x y = 0 ↔ x = y) (dist : P → P → K) (k n i : Nat)
    (hk : 0 < k) (cl : Nat → List P) (cores : Nat → P) (h : Sound val k cl) :
    ∃ r, recluster (medoid dist) (fun p c => E (val p) (val c)) k n i cl cores = .ok r ∧ Sound val k r.2.1 := by
  induction n generalizing i cl cores with
  | zero => exact ⟨_, rfl, h⟩
  | succ n ih =>
    unfold recluster
    obtain ⟨c1, e1⟩ := cores_total (medoid dist) k cl cores (fun a ha => medoid_total dist (cl a) (h.1 a ha))
    rw [e1]
    dsimp only
    have hc := cores_spec (medoid dist) k cl cores c1 e1
    have hspec := movePass_spec (fun p => nearest k (fun b => E (val p) (val (c1 b))) 0) (fun p a => nearest k (fun b => E (val p) (val (c1 b))) a) k
      (fun p a => nearest_indep _ _ _ _ hk) (fun p => (nearest_spec _ _ _ hk).1) cl
    generalize movePass (fun p a => nearest k (fun b => E (val p) (val (c1 b))) a) k cl = mv at hspec ⊢
    obtain ⟨cl1, fl⟩ := mv
    obtain ⟨s1, s2, s3⟩ := hspec
    have hs : Sound val k cl1 := by
      refine ⟨?_, ?_⟩
      · intro a ha h0
        have hm := (medoid_spec dist (cl a) (c1 a) (hc a ha)).1
        have hin : c1 a ∈ (List.range k).flatMap cl1 := s1.mem_iff.2 (mem_flat.2 ⟨a, ha, hm⟩)
        obtain ⟨b, hb, hin⟩ := mem_flat.1 hin
        have hN := s2 b hb _ hin
        have hle := (nearest_spec k (fun b => E (val (c1 a)) (val (c1 b))) 0 hk).2.1 a ha
        rw [hN] at hle
        rw [(hE0 (val (c1 a)) _).2 rfl] at hle
        have hv := (hE0 _ _).1 (le_antisymm hle (hE _ _))
        have hab := h.2 a ha b hb _ hm _ (medoid_spec dist (cl b) (c1 b) (hc b hb)).1 hv
        rw [← hab, h0] at hin
        simp at hin
      · intro a ha b hb p hp q hq hv
        rw [← s2 a ha p hp, ← s2 b hb q hq, hv]
    cases fl with
    | true => exact ih (i+1) cl1 c1 hs
    | false => exact ⟨_, rfl, hs⟩

/-- The initial clusters of seeds apart from one another are sound when the distance depends on the values, and is zero for equal ones only. -/
theorem init_sound (val : P → V) (D : V → V → K) (hD : ∀ x y, 0 ≤ D x y) (hD0 : ∀ x y, D x y = 0 ↔ x = y) (points seeds : List P) (hA : Apart (fun p q => D (val p) (val q)) points seeds)
    (cl : Nat → List P) (h1 : ∀ i s, seeds[i]? = some s → s ∈ cl i)
    (h2 : ∀ i < seeds.length, ∀ p ∈ cl i, ∃ s, seeds[i]? = some s ∧ (p = s ∨ (p ∉ seeds ∧ (∀ t ∈ seeds, D (val p) (val s) ≤ D (val p) (val t)) ∧
        ∀ j t, j < i → seeds[j]? = some t → D (val p) (val s) < D (val p) (val t)))) : Sound val seeds.length cl := by
  have hinj : ∀ (i j : Nat) (s t : P), seeds[i]? = some s → seeds[j]? = some t → val s = val t → i = j := by
    have lt : ∀ (i j : Nat) (s t : P), seeds[i]? = some s → seeds[j]? = some t → val s = val t → ¬ i < j := by
      intro i j s t hs ht hv hij
      obtain ⟨hi, es⟩ := List.getElem?_eq_some_iff.1 hs
      obtain ⟨hj, et⟩ := List.getElem?_eq_some_iff.1 ht
      have := List.pairwise_iff_getElem.1 hA.2 i j hi hj hij
      rw [es, et] at this
      beta_reduce at this
      rw [(hD0 _ _).2 hv.symm] at this
      exact lt_irrefl _ this
    intro i j s t hs ht hv
    rcases lt_trichotomy i j with h | h | h
    · exact absurd h (lt i j s t hs ht hv)
    · exact h
    · exact absurd h (lt j i t s ht hs hv.symm)
  refine ⟨?_, ?_⟩
  · intro a ha h0
    have := h1 a _ (List.getElem?_eq_getElem ha)
    rw [h0] at this; simp at this
  · intro a ha b hb p hp q hq hv
    obtain ⟨s, hs, hps⟩ := h2 a ha p hp
    obtain ⟨t, ht, hqt⟩ := h2 b hb q hq
    -- a point whose value is that of a seed is in the cluster of the seed
    have seed : ∀ (i j : Nat) (s t p q : P), seeds[i]? = some s → seeds[j]? = some t → val s = val q → (∀ t' ∈ seeds, D (val q) (val t) ≤ D (val q) (val t')) → i = j := by
      intro i j s t _ q hs ht hv hmin
      have := hmin s (List.mem_of_getElem? hs)
      rw [(hD0 (val q) (val s)).2 hv.symm] at this
      exact hinj i j s t hs ht (hv.trans ((hD0 _ _).1 (le_antisymm this (hD _ _))))
    rcases hps with hps | ⟨_, m1, f1⟩
    · rcases hqt with hqt | ⟨_, m2, f2⟩
      · rw [hps, hqt] at hv
        exact hinj a b s t hs ht hv
      · rw [hps] at hv
        exact seed a b s t p q hs ht hv m2
    · rcases hqt with hqt | ⟨_, m2, f2⟩
      · rw [hqt] at hv
        exact (seed b a t s q p ht hs hv.symm m1).symm
      · rw [← hv] at f2 m2
        rcases lt_trichotomy a b with h | h | h
        · exact absurd (f2 a s h hs) (not_lt.2 (m1 t (List.mem_of_getElem? ht)))
        · exact h
        · exact absurd (f1 b t h ht) (not_lt.2 (m2 s (List.mem_of_getElem? hs)))

/-- C68, K-medoids: once the seeds are found it returns, with a partition into clusters none of which is empty; when it settled, every core is a point of its cluster with the least sum
of distances, and every point is in a cluster whose core is nearest. -/
theorem zKMedoids_spec (tol : K) (val : P → V) (E D : V → V → K) (hE : ∀ x y, 0 ≤ E x y) (hE0 : ∀ x y, E x y = 0 ↔ x = y) (hD : ∀ x y, 0 ≤ D x y) (hD0 : ∀ x y, D x y = 0 ↔ x = y)
    (rnd : Nat → Nat → Nat) (U : Nat → K) (hU : ∀ i, 0 < U i) (pos : Nat) (points : List P) (hp : points.Nodup) (k : Nat) (cores : Nat → P)
    (hinit : ∃ cl, initPP tol (fun p q => D (val p) (val q)) rnd U pos points k = .ok cl) :
    ∃ i cl cores' b, zKMedoids tol (fun p c => E (val p) (val c)) (fun p q => D (val p) (val q)) rnd U pos points k cores = .ok (i, cl, cores', b) ∧
      Partition k cl points ∧ (∀ a < k, cl a ≠ []) ∧
      (b = true → (∀ a < k, cores' a ∈ cl a ∧ ∀ q ∈ cl a, ((cl a).map fun p => D (val p) (val (cores' a))).sum ≤ ((cl a).map fun p => D (val p) (val q)).sum) ∧
        ∀ a < k, ∀ p ∈ cl a, ∀ b < k, E (val p) (val (cores' a)) ≤ E (val p) (val (cores' b))) := by
  obtain ⟨cl0, hinit⟩ := hinit
  obtain ⟨hk, p1, seeds, hA, hlen, h1, h2⟩ := initPP_spec tol (fun p q => D (val p) (val q)) (fun p => (hD0 _ _).2 rfl) (fun p q => hD _ _) rnd U hU pos points hp k cl0 hinit
  have hs := init_sound val D hD hD0 points seeds hA cl0 h1 h2
  rw [hlen] at hs
  obtain ⟨⟨i, cl, cores', b⟩, hr, hs'⟩ := recluster_medoid_total val E hE hE0 (fun p q => D (val p) (val q)) k 10000 0 hk cl0 cores hs
  obtain ⟨r1, r2, _⟩ := recluster_spec _ _ k hk 10000 0 cl0 cores i cl cores' b hr
  refine ⟨i, cl, cores', b, ?_, r1.trans p1, hs'.1, ?_⟩
  · unfold zKMedoids zKMeans
    rw [hinit]
    exact hr
  · intro hb
    obtain ⟨q1, q2⟩ := r2 hb
    exact ⟨fun a ha => medoid_spec _ _ _ (q1 a ha), q2⟩

/-! ## X-means -/

/-- C100: when every division in two is a partition, so is the result of X-means, whatever test it uses. -/
theorem xMeans_partition (km : Nat → List P → Res (List P × List P × Nat)) (hkm : ∀ pos l ct ch pos', km pos l = .ok (ct, ch, pos') → (ct ++ ch).Perm l)
    (test : List P → List P → List P → Bool) (fuel pos : Nat) (c : List P) (r : List (List P)) (pos' : Nat) (h : xMeans km test fuel pos c = .ok (r, pos')) : r.flatten.Perm c := by
  induction fuel generalizing pos c r pos' with
  | zero =>
    unfold xMeans at h
    split_ifs at h
    simp only [Res.ok.injEq, Prod.mk.injEq] at h
    rw [← h.1]; simp
  | succ fuel ih =>
    unfold xMeans at h
    split_ifs at h
    · simp only [Res.ok.injEq, Prod.mk.injEq] at h
      rw [← h.1]; simp
    · dsimp only at h
      cases hk : km pos c with
      | fail => rw [hk] at h; simp at h
      | ub => rw [hk] at h; simp at h
      | ok x =>
        obtain ⟨ct, ch, pos1⟩ := x
        rw [hk] at h
        dsimp only at h
        split_ifs at h
        · simp only [Res.ok.injEq, Prod.mk.injEq] at h
          rw [← h.1]; simp
        · cases hh : xMeans km test fuel pos1 ch with
          | fail => rw [hh] at h; simp at h
          | ub => rw [hh] at h; simp at h
          | ok x =>
            obtain ⟨lh, pos2⟩ := x
            rw [hh] at h
            dsimp only at h
            cases ht : xMeans km test fuel pos2 ct with
            | fail => rw [ht] at h; simp at h
            | ub => rw [ht] at h; simp at h
            | ok x =>
              obtain ⟨lt, pos3⟩ := x
              rw [ht] at h
              simp only [Res.ok.injEq, Prod.mk.injEq] at h
              rw [← h.1, List.flatten_append]
              exact ((ih _ _ _ _ ht).append (ih _ _ _ _ hh)).trans (hkm _ _ _ _ _ hk)

/-- C100: it terminates when every division gives two smaller clusters. -/
theorem xMeans_total (km : Nat → List P → Res (List P × List P × Nat)) (hkm : ∀ pos l, 10 ≤ l.length → ∃ ct ch pos', km pos l = .ok (ct, ch, pos') ∧ ct.length < l.length ∧ ch.length < l.length)
    (test : List P → List P → List P → Bool) (fuel pos : Nat) (c : List P) (hf : c.length ≤ fuel) : ∃ r, xMeans km test fuel pos c = .ok r := by
  induction fuel generalizing pos c with
  | zero =>
    unfold xMeans
    rw [if_pos (by omega)]
    exact ⟨_, rfl⟩
  | succ fuel ih =>
    unfold xMeans
    by_cases hc : c.length < 10
    · rw [if_pos hc]; exact ⟨_, rfl⟩
    · rw [if_neg hc]
      obtain ⟨ct, ch, pos1, e, h1, h2⟩ := hkm pos c (by omega)
      dsimp only
      rw [e]
      dsimp only
      by_cases ht : xMeansTest test c ch ct = true
      · rw [if_pos ht]; exact ⟨_, rfl⟩
      · rw [if_neg ht]
        obtain ⟨⟨lh, pos2⟩, eh⟩ := ih pos1 ch (by omega)
        rw [eh]
        dsimp only
        obtain ⟨⟨lt, pos3⟩, et⟩ := ih pos2 ct (by omega)
        rw [et]
        exact ⟨_, rfl⟩

/-! ## Silhouettes -/

/-- Specification: the mean distance of a point from those of a cluster. -/
def meanDist (dist : P → P → K) (l : List P) (p : P) : K := (l.map fun q => dist q p).sum / (l.length : K)

theorem meanDist_nonneg (dist : P → P → K) (hd : ∀ p q, 0 ≤ dist p q) (l : List P) (p : P) : 0 ≤ meanDist dist l p := by
  unfold meanDist
  refine div_nonneg (List.sum_nonneg ?_) (Nat.cast_nonneg _)
  intro x hx
  obtain ⟨q, _, rfl⟩ := List.mem_map.1 hx
  exact hd _ _

/-- C101: with two or more clusters, none of which is empty, the silhouette of a point is the difference of its mean distance from the nearest other cluster and that from its own,
over the larger of them; it is between -1 and 1, and positive exactly when the point is nearer to its own cluster. -/
theorem silhouette_spec (dist : P → P → K) (hd : ∀ p q, 0 ≤ dist p q) (k : Nat) (hk : 2 ≤ k) (cl : Nat → List P) (hcl : ∀ a < k, cl a ≠ []) (a : Nat) (ha : a < k) (p : P)
    (hpos : ∀ b < k, b ≠ a → 0 < meanDist dist (cl b) p) :
    ∃ s b, silhouette dist k cl a p = .ok s ∧ b < k ∧ b ≠ a ∧ (∀ c < k, c ≠ a → meanDist dist (cl b) p ≤ meanDist dist (cl c) p) ∧
      s = (meanDist dist (cl b) p - meanDist dist (cl a) p) / max (meanDist dist (cl a) p) (meanDist dist (cl b) p) ∧ -1 ≤ s ∧ s ≤ 1 ∧
      (0 < s ↔ meanDist dist (cl a) p < meanDist dist (cl b) p) := by
  have hda : ∀ b < k, distAve dist (cl b) p = .ok (meanDist dist (cl b) p) := by
    intro b hb
    unfold distAve
    rw [if_neg (hcl b hb)]; rfl
  obtain ⟨m, e, hm⟩ := forUpM_ok (lo := 0) (hi := k) (otherStep dist cl a p) none
    (fun i m => (m = none ∧ ∀ c < i, c = a) ∨ ∃ b < i, b ≠ a ∧ m = some (meanDist dist (cl b) p) ∧ ∀ c < i, c ≠ a → meanDist dist (cl b) p ≤ meanDist dist (cl c) p)
    (Nat.zero_le _) (.inl ⟨rfl, by intro c hc; omega⟩)
    (by
      intro i m _ hi hP
      unfold otherStep
      by_cases hia : i = a
      · rw [if_pos hia]
        refine ⟨m, rfl, ?_⟩
        rcases hP with ⟨h1, h2⟩ | ⟨b, hb, h1, h2, h3⟩
        · left
          refine ⟨h1, fun c hc => ?_⟩
          by_cases hci : c = i
          · rw [hci, hia]
          · exact h2 c (by omega)
        · right
          refine ⟨b, by omega, h1, h2, fun c hc hca => ?_⟩
          exact h3 c (by rcases Nat.lt_succ_iff_lt_or_eq.1 hc with h | h; exact h; exact absurd (h.trans hia) hca) hca
      · rw [if_neg hia, hda i hi]
        dsimp only
        refine ⟨_, rfl, .inr ?_⟩
        rcases hP with ⟨h1, h2⟩ | ⟨b, hb, h1, h2, h3⟩
        · rw [h1, if_pos (show ltInf (meanDist dist (cl i) p) none from trivial)]
          refine ⟨i, by omega, hia, rfl, fun c hc hca => ?_⟩
          have : c = i := by
            by_contra hne
            exact hca (h2 c (by omega))
          rw [this]
        · rw [h2]
          by_cases hc : meanDist dist (cl i) p < meanDist dist (cl b) p
          · rw [if_pos (show ltInf (meanDist dist (cl i) p) (some (meanDist dist (cl b) p)) from hc)]
            refine ⟨i, by omega, hia, rfl, fun c hc' hca => ?_⟩
            by_cases hci : c = i
            · rw [hci]
            · exact hc.le.trans (h3 c (by omega) hca)
          · rw [if_neg (show ¬ ltInf (meanDist dist (cl i) p) (some (meanDist dist (cl b) p)) from hc)]
            refine ⟨b, by omega, h1, rfl, fun c hc' hca => ?_⟩
            by_cases hci : c = i
            · rw [hci]; exact not_lt.1 hc
            · exact h3 c (by omega) hca)
  rcases hm with ⟨_, h2⟩ | ⟨b, hb, h1, h2, h3⟩
  · have := h2 0 (by omega)
    have := h2 1 (by omega)
    omega
  · have hx := meanDist_nonneg dist hd (cl a) p
    have hy := hpos b hb h1
    have hM : 0 < max (meanDist dist (cl a) p) (meanDist dist (cl b) p) := lt_of_lt_of_le hy (le_max_right _ _)
    have hxM := le_max_left (meanDist dist (cl a) p) (meanDist dist (cl b) p)
    have hyM := le_max_right (meanDist dist (cl a) p) (meanDist dist (cl b) p)
    refine ⟨_, b, ?_, hb, h1, h3, rfl, ?_, ?_, ?_⟩
    · unfold silhouette
      rw [hda a ha, e, h2]
      dsimp only
      rw [if_neg hM.ne']
    · rw [le_div_iff₀ hM]; linarith
    · rw [div_le_iff₀ hM]; linarith
    · rw [div_pos_iff_of_pos_right hM, sub_pos]

end field

/-! ## Concrete cases -/

/-- Four points on a line, in two groups. -/
def exVal : Nat → ℚ := fun i => if i = 0 then 0 else if i = 1 then 1 else if i = 2 then 10 else 12

def exDist (p q : Nat) : ℚ := |exVal p - exVal q|

def exMean (l : List Nat) : Res ℚ := .ok (if l = [] then 0 else (l.map exVal).sum / (l.length : ℚ))

/-- `zKMeans_spec_partial` is met: two clusters of the four points, settled. -/
example : (match zKMeans (K := ℚ) (P := Nat) (C := ℚ) (1/1000) exMean (fun p c => (exVal p - c) ^ 2) exDist (fun _ _ => 0) (fun _ => 1/2) 0 [0, 1, 2, 3] 2 (fun _ => 0) with
    | .ok (i, cl, cores, b) => decide (i = 0 ∧ cl 0 = [0, 1] ∧ cl 1 = [3, 2] ∧ cores 0 = 1/2 ∧ cores 1 = 11 ∧ b = true) | _ => false) = true := by decide +kernel

/-- `zKMeansKKZ_spec_partial` is met. -/
example : (match zKMeansKKZ (K := ℚ) (P := Nat) (C := ℚ) exMean (fun p c => (exVal p - c) ^ 2) exDist (fun p => |exVal p - 23/4|) [0, 1, 2, 3] 2 (fun _ => 0) with
    | .ok (_, cl, cores, b) => decide ((cl 0).length = 2 ∧ (cl 1).length = 2 ∧ (cores 0 = 1/2 ∨ cores 1 = 1/2) ∧ b = true) | _ => false) = true := by decide +kernel

/-- `zKMedoids_spec` is met. -/
example : (match zKMedoids (K := ℚ) (P := Nat) (1/1000) (fun p c => (exVal p - exVal c) ^ 2) exDist (fun _ _ => 0) (fun _ => 1/2) 0 [0, 1, 2, 3] 2 (fun _ => 0) with
    | .ok (_, cl, cores, b) => decide (cl 0 = [0, 1] ∧ cl 1 = [3, 2] ∧ cores 0 = 0 ∧ cores 1 = 3 ∧ b = true) | _ => false) = true := by decide +kernel

/-- `initPP_total` is met: two seeds of the four points, whatever the random numbers. -/
example (rnd : Nat → Nat → Nat) (hr : ∀ k m, 0 < m → rnd k m < m) (U : Nat → ℚ) (hU : ∀ i, 0 < U i ∧ U i ≤ 1) : ∃ cl, initPP (1/1000) exDist rnd U 0 [0, 1, 2, 3] 2 = .ok cl := by
  refine initPP_total (1/1000) (by norm_num) exDist (by intro p; simp [exDist]) (fun p q => abs_nonneg _) rnd hr U hU 0 _ (by decide) (by decide) 2 (by decide) ?_
  intro s0 seeds hA hl
  have : seeds = [] := List.length_eq_zero_iff.1 (by omega)
  subst this
  have hs := hA.1 s0 (by simp)
  simp only [List.mem_cons, List.not_mem_nil, or_false] at hs
  rcases hs with rfl | rfl | rfl | rfl <;> decide +kernel

/-- `recluster_descent` is met: the sum of squared errors falls from that of the initial clusters. -/
example : (match recluster (K := ℚ) (P := Nat) (C := ℚ) exMean (fun p c => (exVal p - c) ^ 2) 2 10 0 (fun a => if a = 0 then [0, 2] else [1, 3]) (fun _ => 0) with
    | .ok (_, cl, cores, b) => decide (total (fun p c => (exVal p - c) ^ 2) 2 cl cores = 5/2 ∧ total (fun p c => (exVal p - c) ^ 2) 2 (fun a => if a = 0 then [0, 2] else [1, 3])
        (fun a => if a = 0 then 5 else 13/2) = 221/2 ∧ b = true) | _ => false) = true := by decide +kernel

/-- C68 fails when the roulette draws zero: the first point is taken as a seed again, and is in both clusters. -/
theorem zKMeans_zero_draw_violated : ∃ i cl cores b, zKMeans (K := ℚ) (P := Nat) (C := ℚ) (1/1000) exMean (fun p c => (exVal p - c) ^ 2) exDist (fun _ _ => 0) (fun _ => 0) 0 [0, 1, 2, 3] 2 (fun _ => 0)
      = .ok (i, cl, cores, b) ∧ ¬ Partition 2 cl [0, 1, 2, 3] := by
  have h : (match zKMeans (K := ℚ) (P := Nat) (C := ℚ) (1/1000) exMean (fun p c => (exVal p - c) ^ 2) exDist (fun _ _ => 0) (fun _ => 0) 0 [0, 1, 2, 3] 2 (fun _ => 0) with
    | .ok (_, cl, _, _) => decide (((List.range 2).flatMap cl).length ≠ 4) | _ => false) = true := by decide +kernel
  cases hr : zKMeans (K := ℚ) (P := Nat) (C := ℚ) (1/1000) exMean (fun p c => (exVal p - c) ^ 2) exDist (fun _ _ => 0) (fun _ => 0) 0 [0, 1, 2, 3] 2 (fun _ => 0) with
  | fail => rw [hr] at h; simp at h
  | ub => rw [hr] at h; simp at h
  | ok x =>
    obtain ⟨i, cl, cores, b⟩ := x
    rw [hr] at h
    refine ⟨i, cl, cores, b, rfl, fun hp => ?_⟩
    have := hp.length_eq
    simp only [decide_eq_true_eq] at h
    exact h this

/-- C68: there is no result when the points coincide: K-means++ runs beyond the end of the list of points. -/
theorem zKMeans_coincident_violated {C : Type*} (core : List Nat → Res C) (err : Nat → C → ℚ) (cores : Nat → C) :
    zKMeans (K := ℚ) (P := Nat) (1/1000) core err (fun _ _ => 0) (fun _ _ => 0) (fun _ => 1/2) 0 [0, 1, 2] 2 cores = .ub := by
  have h : initPP (K := ℚ) (P := Nat) (1/1000) (fun _ _ => 0) (fun _ _ => 0) (fun _ => 1/2) 0 [0, 1, 2] 2 = .ub := by
    have : (match initPP (K := ℚ) (P := Nat) (1/1000) (fun _ _ => 0) (fun _ _ => 0) (fun _ => 1/2) 0 [0, 1, 2] 2 with | .ub => true | _ => false) = true := by decide +kernel
    cases hr : initPP (K := ℚ) (P := Nat) (1/1000) (fun _ _ => 0) (fun _ _ => 0) (fun _ => 1/2) 0 [0, 1, 2] 2 with
    | ok _ => rw [hr] at this; simp at this
    | fail => rw [hr] at this; simp at this
    | ub => rfl
  unfold zKMeans
  rw [h]

/-- Likewise the method of Katsavounidis, Kuo and Zhang when more clusters are asked for than there are different points: no point is the farthest. -/
theorem zKMeansKKZ_coincident_violated {C : Type*} (core : List Nat → Res C) (err : Nat → C → ℚ) (cores : Nat → C) :
    zKMeansKKZ (K := ℚ) (P := Nat) core err exDist (fun p => |exVal p - 1/2|) [0, 1] 3 cores = .ub := by
  have h : initKKZ (K := ℚ) (P := Nat) exDist (fun p => |exVal p - 1/2|) [0, 1] 3 = .ub := by
    have : (match initKKZ (K := ℚ) (P := Nat) exDist (fun p => |exVal p - 1/2|) [0, 1] 3 with | .ub => true | _ => false) = true := by decide +kernel
    cases hr : initKKZ (K := ℚ) (P := Nat) exDist (fun p => |exVal p - 1/2|) [0, 1] 3 with
    | ok _ => rw [hr] at this; simp at this
    | fail => rw [hr] at this; simp at this
    | ub => rfl
  unfold zKMeansKKZ
  rw [h]

/-- Ten points on a line, in two groups far from each other. -/
def exVal10 : Nat → ℚ := fun i => if i < 5 then (i : ℚ) else 100 + (i : ℚ)

/-- The norm of the error from the mean. -/
def exErr10 (l : List Nat) (p : Nat) : ℚ := |exVal10 p - (l.map exVal10).sum / (l.length : ℚ)|

/-- C100 fails with the test of the density: it finds that the two groups classify the points better, and the division is discarded. -/
theorem xMeans_density_violated : let g1 := [0, 1, 2, 3, 4]; let g2 := [5, 6, 7, 8, 9]
    checkDensity exErr10 1 (g1 ++ g2) g1 g2 = true ∧
      xMeans (fun pos _ => .ok (g1, g2, pos)) (checkDensity exErr10 1) 10 0 (g1 ++ g2) = .ok ([g1 ++ g2], 0) := by
  have h : checkDensity exErr10 1 [0, 1, 2, 3, 4, 5, 6, 7, 8, 9] [0, 1, 2, 3, 4] [5, 6, 7, 8, 9] = true := by decide +kernel
  have h' : checkDensity exErr10 1 [0, 1, 2, 3, 4, 5, 6, 7, 8, 9] [5, 6, 7, 8, 9] [0, 1, 2, 3, 4] = true := by decide +kernel
  refine ⟨h, ?_⟩
  unfold xMeans
  rw [if_neg (by decide)]
  dsimp only
  rw [if_pos (by unfold xMeansTest; rw [if_neg (by decide)]; exact h')]

/-- Likewise a division into a cluster more than ten times the other is never discarded, whatever the test says. -/
theorem xMeans_crisp_violated {P : Type*} [DecidableEq P] (test : List P → List P → List P → Bool) (c c1 c2 : List P) (h : 10 * c1.length < c2.length) : xMeansTest test c c1 c2 = false := by
  unfold xMeansTest
  rw [if_pos (.inl h)]

/-- `xMeans_partition` is met by a real division: with the opposite test the two groups come out. -/
example : xMeans (P := Nat) (fun pos _ => .ok ([0, 1, 2, 3, 4], [5, 6, 7, 8, 9], pos)) (fun a b c => !(checkDensity exErr10 1 a b c)) 10 0 [0, 1, 2, 3, 4, 5, 6, 7, 8, 9]
    = .ok ([[0, 1, 2, 3, 4], [5, 6, 7, 8, 9]], 0) := by
  have h' : checkDensity exErr10 1 [0, 1, 2, 3, 4, 5, 6, 7, 8, 9] [5, 6, 7, 8, 9] [0, 1, 2, 3, 4] = true := by decide +kernel
  unfold xMeans
  rw [if_neg (by decide)]
  dsimp only
  rw [if_neg (by unfold xMeansTest; rw [if_neg (by decide)]; beta_reduce; rw [h']; simp)]
  rfl

/-- `silhouette_spec` is met. -/
example : (match silhouette (K := ℚ) exDist 2 (fun a => if a = 0 then [0, 1] else [2, 3]) 0 1 with | .ok s => decide (s = 19/20) | _ => false) = true := by decide +kernel

end Zm.Clus
