import Verif.Model.ClusterMem
import Mathlib.Tactic.Ring
import Mathlib.Tactic.Linarith
import Mathlib.Data.List.Basic
import Mathlib.Algebra.BigOperators.Group.List.Basic

/-! # C222: sets of clusters release their memory -/

namespace Zm.ClusterMem
open Zm

/-- The blocks of a cluster: its cell, its core, the cells of its samples and its silhouettes. -/
def blocks (c : Cl) : Int := 2 + c.cells + if c.sil then 1 else 0

/-- The blocks of a set of clusters. -/
def weight (mc : MC) : Int := (mc.clusters.map blocks).sum + (if mc.error then 1 else 0) + if mc.lerr then 1 else 0

theorem alloc_live (avail : Nat → Bool) (l : Led) : (alloc avail l).2.live = l.live + if (alloc avail l).1 then 1 else 0 := by
  unfold alloc; dsimp only; split <;> simp

theorem freeIf_live (b : Bool) (l : Led) : (freeIf b l).live = l.live - if b then 1 else 0 := by
  cases b <;> simp [freeIf, free]

theorem cellsFree_live : ∀ (n : Nat) (l : Led), (cellsFree n l).live = l.live - n
  | 0, l => by simp [cellsFree]
  | n+1, l => by rw [cellsFree, cellsFree_live n]; simp [free]; ring

theorem clusterDestroy_live (c : Cl) (l : Led) : (free (clusterDestroy c l)).live = l.live - blocks c := by
  unfold clusterDestroy blocks
  simp only [free, freeIf_live, cellsFree_live]
  ring

theorem clustersDestroy_live : ∀ (cs : List Cl) (l : Led), (clustersDestroy cs l).live = l.live - (cs.map blocks).sum
  | [], l => by simp [clustersDestroy]
  | c :: cs, l => by rw [clustersDestroy, clustersDestroy_live cs, clusterDestroy_live]; simp; ring

theorem destroy_live (mc : MC) (l : Led) : (destroy mc l).2.live = l.live - weight mc := by
  unfold destroy weight
  simp only [freeIf_live, clustersDestroy_live]
  ring

theorem weight_empty : weight {} = 0 := rfl

theorem init_live (avail : Nat → Bool) (l : Led) : (init avail l).2.2.live - weight (init avail l).2.1 = l.live ∧ (init avail l).2.1.clusters = [] := by
  have h1 := alloc_live avail l
  unfold init
  dsimp only
  cases ha : (alloc avail l).1 with
  | false => rw [ha] at h1; simpa [weight] using h1
  | true =>
    rw [ha] at h1
    have h2 := alloc_live avail (alloc avail l).2
    simp only [Bool.not_true, Bool.false_eq_true, if_false]
    refine ⟨?_, by trivial⟩
    rw [h2, h1]
    simp only [weight, List.map_nil, List.sum_nil, if_true]
    split <;> ring

theorem methodCopy_live (avail : Nat → Bool) (mc : MC) (l : Led) :
    (methodCopy avail mc l).2.2.live - weight (methodCopy avail mc l).2.1 = l.live - weight mc ∧ (methodCopy avail mc l).2.1.clusters = mc.clusters := by
  have h1 := alloc_live avail (freeIf mc.error l)
  rw [freeIf_live] at h1
  unfold methodCopy
  dsimp only
  cases ha : (alloc avail (freeIf mc.error l)).1 with
  | false =>
    rw [ha] at h1
    simp only [Bool.not_false, if_true]
    refine ⟨?_, by trivial⟩
    rw [h1]
    simp only [weight, Bool.false_eq_true, if_false]
    ring
  | true =>
    rw [ha] at h1
    have h2 := alloc_live avail (freeIf mc.lerr (alloc avail (freeIf mc.error l)).2)
    rw [freeIf_live, h1] at h2
    simp only [Bool.not_true, Bool.false_eq_true, if_false]
    refine ⟨?_, by trivial⟩
    rw [h2]
    simp only [weight, if_true]
    ring

theorem weight_cons (mc : MC) (c : Cl) : weight { mc with clusters := c :: mc.clusters } = blocks c + weight mc := by
  simp only [weight, List.map_cons, List.sum_cons]; ring

theorem allocLoop_live (avail : Nat → Bool) : ∀ (k : Nat) (mc : MC) (l : Led),
    (allocLoop avail k mc l).2.2.live - weight (allocLoop avail k mc l).2.1 = l.live - weight mc ∧
    ((allocLoop avail k mc l).1 = true → (allocLoop avail k mc l).2.1.clusters.length = mc.clusters.length + k)
  | 0, mc, l => ⟨rfl, fun _ => rfl⟩
  | k+1, mc, l => by
    have h1 := alloc_live avail l
    have h2 := alloc_live avail (alloc avail l).2
    have h3 := allocLoop_live avail k { mc with clusters := {} :: mc.clusters } (alloc avail (alloc avail l).2).2
    unfold allocLoop
    dsimp only
    cases ha : (alloc avail l).1 with
    | false =>
      rw [ha] at h1
      simp only [Bool.not_false, if_true]
      refine ⟨?_, by simp⟩
      rw [destroy_live, h1]
      simp [destroy, weight_empty]
    | true =>
      rw [ha] at h1
      simp only [Bool.not_true, Bool.false_eq_true, if_false]
      cases hb : (alloc avail (alloc avail l).2).1 with
      | false =>
        rw [hb] at h2
        simp only [Bool.not_false, if_true]
        refine ⟨?_, by simp⟩
        rw [destroy_live]
        simp only [free, h2, h1]
        simp [destroy, weight_empty]
      | true =>
        rw [hb] at h2
        simp only [Bool.not_true, Bool.false_eq_true, if_false]
        refine ⟨?_, fun h => ?_⟩
        · rw [h3.1, weight_cons, h2, h1]
          simp [blocks]
          ring
        · rw [h3.2 h]
          simp; ring

/-- The blocks of the method alone. -/
def methodWeight (mc : MC) : Int := (if mc.error then 1 else 0) + if mc.lerr then 1 else 0

theorem allocClusters_live (avail : Nat → Bool) (k : Nat) (mc : MC) (l : Led) :
    (allocClusters avail k mc l).2.2.live - weight (allocClusters avail k mc l).2.1 = l.live - methodWeight mc ∧
    ((allocClusters avail k mc l).1 = true → (allocClusters avail k mc l).2.1.clusters.length = k) := by
  have e : weight { mc with clusters := [] } = methodWeight mc := by simp [weight, methodWeight]
  unfold allocClusters
  dsimp only
  split
  · exact ⟨by rw [e], by simp⟩
  · have h := allocLoop_live avail k { mc with clusters := [] } l
    rw [e] at h
    exact ⟨h.1, fun hk => by rw [h.2 hk]; simp⟩

theorem sum_set (cs : List Cl) (i : Nat) (c d : Cl) (h : cs[i]? = some c) : ((cs.set i d).map blocks).sum = (cs.map blocks).sum + blocks d - blocks c := by
  induction cs generalizing i with
  | nil => simp at h
  | cons x cs ih =>
    cases i with
    | zero =>
      simp only [List.getElem?_cons_zero, Option.some.injEq] at h
      subst h
      simp
      ring
    | succ i =>
      simp only [List.getElem?_cons_succ] at h
      simp only [List.set_cons_succ, List.map_cons, List.sum_cons]
      rw [ih i h]
      ring

theorem insert_spec (avail : Nat → Bool) (i : Nat) (mc : MC) (l : Led) (hi : i < mc.clusters.length) :
    ∃ r, insert avail i mc l = .ok r ∧ r.2.2.live - weight r.2.1 = l.live - weight mc ∧ r.2.1.clusters.length = mc.clusters.length := by
  have h1 := alloc_live avail l
  unfold insert
  rw [List.getElem?_eq_getElem hi]
  dsimp only
  split
  · next ha =>
    rw [ha] at h1
    refine ⟨_, rfl, ?_, by simp⟩
    simp only [weight]
    rw [sum_set mc.clusters i mc.clusters[i] _ (List.getElem?_eq_getElem hi), h1]
    simp only [blocks, if_true]
    push_cast
    ring
  · next ha =>
    rw [if_neg ha] at h1
    exact ⟨_, rfl, by rw [h1]; ring, rfl⟩

theorem inserts_spec (avail : Nat → Bool) : ∀ (is : List Nat) (mc : MC) (l : Led), (∀ i ∈ is, i < mc.clusters.length) →
    ∃ r, inserts avail is mc l = .ok r ∧ r.2.2.live - weight r.2.1 = l.live - weight mc ∧ r.2.1.clusters.length = mc.clusters.length
  | [], mc, l, _ => ⟨_, rfl, rfl, rfl⟩
  | i :: is, mc, l, h => by
    obtain ⟨r, e, h1, h2⟩ := insert_spec avail i mc l (h i (by simp))
    unfold inserts
    rw [e]
    simp only [Res.bind]
    split
    · obtain ⟨r', e', h1', h2'⟩ := inserts_spec avail is r.2.1 r.2.2 fun j hj => by rw [h2]; exact h j (by simp [hj])
      exact ⟨r', e', by rw [h1', h1], by rw [h2', h2]⟩
    · exact ⟨r, rfl, h1, h2⟩

theorem initPP_spec (avail : Nat → Bool) (is : List Nat) (mc : MC) (l : Led) (h : ∀ i ∈ is, i < mc.clusters.length) :
    ∃ r, initPP avail is mc l = .ok r ∧ r.2.2.live - weight r.2.1 = l.live - weight mc ∧ r.2.1.clusters.length = mc.clusters.length := by
  unfold initPP
  split
  · exact ⟨_, rfl, rfl, rfl⟩
  have h1 := alloc_live avail l
  dsimp only
  cases ha : (alloc avail l).1 with
  | false => rw [ha] at h1; exact ⟨_, rfl, by simp [h1], rfl⟩
  | true =>
    rw [ha] at h1
    obtain ⟨r, e, h2, h3⟩ := inserts_spec avail is mc (alloc avail l).2 h
    simp only [Bool.not_true, Bool.false_eq_true, if_false]
    rw [e]
    refine ⟨_, rfl, ?_, h3⟩
    rw [h1] at h2
    simp only [free, if_true] at h2 ⊢
    linarith

theorem move_sum (ij : Nat × Nat) (cs : List Cl) : ((move ij cs).map blocks).sum = (cs.map blocks).sum ∧ (move ij cs).length = cs.length := by
  unfold move
  split
  · exact ⟨rfl, rfl⟩
  next c hc =>
  split
  · exact ⟨rfl, rfl⟩
  next h0 =>
  have e := sum_set cs ij.1 c { c with cells := c.cells - 1 } hc
  have hl : ij.1 < cs.length := by
    by_contra h
    rw [List.getElem?_eq_none (by omega)] at hc
    cases hc
  dsimp only
  split
  · refine ⟨?_, by simp⟩
    rw [sum_set _ ij.1 { c with cells := c.cells - 1 } c (by simp [hl]), e]
    ring
  · next d hd =>
    refine ⟨?_, by simp⟩
    rw [sum_set _ ij.2 d _ hd, e]
    simp only [blocks]
    have : ((c.cells - 1 : Nat) : Int) = c.cells - 1 := by omega
    rw [this]
    push_cast
    ring

theorem moves_sum (ms : List (Nat × Nat)) (cs : List Cl) : ((moves ms cs).map blocks).sum = (cs.map blocks).sum ∧ (moves ms cs).length = cs.length := by
  unfold moves
  induction ms generalizing cs with
  | nil => exact ⟨rfl, rfl⟩
  | cons m ms ih =>
    obtain ⟨a, b⟩ := move_sum m cs
    obtain ⟨c, d⟩ := ih (move m cs)
    exact ⟨by rw [List.foldl_cons, c, a], by rw [List.foldl_cons, d, b]⟩

/-- K-means: what is live beyond the new clusters is what was live beyond the method. -/
theorem kMeans_spec (avail : Nat → Bool) (k : Nat) (is : List Nat) (ms : List (Nat × Nat)) (mc : MC) (l : Led) (h : ∀ i ∈ is, i < k) :
    ∃ r, kMeans avail false k is ms mc l = .ok r ∧ r.2.2.live - weight r.2.1 = l.live - methodWeight mc ∧ (r.1 = true → r.2.1.clusters.length = k) := by
  obtain ⟨h1, h2⟩ := allocClusters_live avail k mc l
  unfold kMeans
  dsimp only
  cases ha : (allocClusters avail k mc l).1 with
  | false => exact ⟨_, rfl, h1, by simp [ha]⟩
  | true =>
    have hk := h2 ha
    obtain ⟨r, e, h3, h4⟩ := initPP_spec avail is (allocClusters avail k mc l).2.1 (allocClusters avail k mc l).2.2 (by rw [hk]; exact h)
    simp only [Bool.not_true, Bool.false_eq_true, if_false]
    rw [e]
    simp only [Res.bind]
    cases hr : r.1 with
    | false => exact ⟨_, rfl, by rw [h3, h1], by simp [hr]⟩
    | true =>
      refine ⟨_, rfl, ?_, fun _ => ?_⟩
      · show r.2.2.live - weight { r.2.1 with clusters := moves ms r.2.1.clusters } = _
        rw [← h1, ← h3]
        simp only [weight]
        rw [(moves_sum ms r.2.1.clusters).1]
      · show (moves ms r.2.1.clusters).length = k
        rw [(moves_sum ms r.2.1.clusters).2, h4, hk]

theorem silhouettes_spec (avail : Nat → Bool) : ∀ (cs : List Cl) (l : Led),
    (silhouettes avail cs l).2.2.live - ((silhouettes avail cs l).2.1.map blocks).sum = l.live - (cs.map blocks).sum ∧ (silhouettes avail cs l).2.1.length = cs.length
  | [], l => ⟨rfl, rfl⟩
  | c :: cs, l => by
    have h1 := alloc_live avail (freeIf c.sil l)
    rw [freeIf_live] at h1
    have ih := silhouettes_spec avail cs (alloc avail (freeIf c.sil l)).2
    unfold silhouettes
    dsimp only
    cases ha : (alloc avail (freeIf c.sil l)).1 with
    | false =>
      rw [ha] at h1
      simp only [Bool.not_false, if_true]
      refine ⟨?_, rfl⟩
      rw [h1]
      simp only [List.map_cons, List.sum_cons, blocks, Bool.false_eq_true, if_false]
      ring
    | true =>
      rw [ha] at h1
      simp only [Bool.not_true, Bool.false_eq_true, if_false]
      refine ⟨?_, by simp [ih.2]⟩
      have := ih.1
      rw [h1] at this
      simp only [List.map_cons, List.sum_cons, blocks, if_true] at this ⊢
      linarith

/-! ## Histories -/

/-- A call by the user: the set of clusters is initialised, clustered by K-means++ into `k` clusters, its silhouettes are computed, it is destroyed. -/
inductive Op where
  | init
  | kMeans (k : Nat) (is : List Nat) (ms : List (Nat × Nat))
  | silhouette
  | destroy

/-- One call. -/
def step (avail : Nat → Bool) (o : Op) (mc : MC) (l : Led) : Res (MC × Led) :=
  match o with
  | .init => .ok ((init avail l).2.1, (init avail l).2.2)
  | .kMeans k is ms => (kMeans avail false k is ms mc l).bind fun r => .ok (r.2.1, r.2.2)
  | .silhouette => .ok ({ mc with clusters := (silhouettes avail mc.clusters l).2.1 }, (silhouettes avail mc.clusters l).2.2)
  | .destroy => .ok (destroy mc l)

/-- A history of calls, whatever each of them returns. -/
def run (avail : Nat → Bool) : List Op → MC → Led → Res (MC × Led)
  | [], mc, l => .ok (mc, l)
  | o :: os, mc, l => (step avail o mc l).bind fun r => run avail os r.1 r.2

/-- The set is initialised only where there is none, and clustered at most once before it is destroyed; samples are put into clusters that are there.  The number is 0 where there is no set, 1 where it may be
initialised and 2 where it may be clustered. -/
def Once : Nat → List Op → Prop
  | _, [] => True
  | p, .init :: os => p = 0 ∧ Once 1 os
  | p, .kMeans k is _ :: os => p ≤ 1 ∧ (∀ i ∈ is, i < k) ∧ Once 2 os
  | p, .silhouette :: os => Once p os
  | _, .destroy :: os => Once 0 os

/-- **C222 (what holds).** Whatever allocations fail, after any history in which a set of clusters is clustered at most once between its initialisation and its destruction, its destruction leaves nothing behind, and
nothing undefined happens. -/
theorem clusters_released_partial (avail : Nat → Bool) (ops : List Op) (h : Once 0 ops) :
    ∃ mc l, run avail ops {} {} = .ok (mc, l) ∧ l.live = weight mc ∧ (destroy mc l).2.live = 0 := by
  have key : ∀ (ops : List Op) (p : Nat) (mc : MC) (l : Led), Once p ops → l.live = weight mc → (p ≤ 1 → mc.clusters = []) → (p = 0 → weight mc = 0) →
      ∃ mc' l', run avail ops mc l = .ok (mc', l') ∧ l'.live = weight mc' := by
    intro ops
    induction ops with
    | nil => exact fun p mc l _ h _ _ => ⟨mc, l, rfl, h⟩
    | cons o os ih =>
      intro p mc l ho hb h1 h0
      cases o with
      | init =>
        obtain ⟨a, b⟩ := init_live avail l
        have e := h0 ho.1
        exact ih 1 _ _ ho.2 (by rw [hb, e] at a; linarith) (fun _ => b) (by simp)
      | kMeans k is ms =>
        obtain ⟨r, e, a, -⟩ := kMeans_spec avail k is ms mc l ho.2.1
        unfold run
        simp only [step]
        rw [e]
        have hw : weight mc = methodWeight mc := by simp [weight, methodWeight, h1 ho.1]
        exact ih 2 _ _ ho.2.2 (by rw [hb, hw] at a; linarith) (by omega) (by omega)
      | silhouette =>
        obtain ⟨a, b⟩ := silhouettes_spec avail mc.clusters l
        unfold run step
        refine ih p _ _ ho ?_ (fun hp => ?_) (fun hp => ?_)
        · simp only [weight] at hb ⊢
          linarith
        · show (silhouettes avail mc.clusters l).2.1 = []
          rw [h1 hp]; rfl
        · have hc := h1 (by omega)
          show weight { mc with clusters := (silhouettes avail mc.clusters l).2.1 } = 0
          have e := h0 hp
          rw [hc]
          simp only [weight, hc] at e ⊢
          exact e
      | destroy =>
        have a := destroy_live mc l
        exact ih 0 _ _ ho (by rw [a, hb]; simp [destroy, weight_empty]) (fun _ => rfl) (fun _ => rfl)
  obtain ⟨mc, l, e, hb⟩ := key ops 0 {} {} h rfl (fun _ => rfl) (fun _ => rfl)
  exact ⟨mc, l, e, hb, by rw [destroy_live, hb, sub_self]⟩

example : Once 0 [.init, .kMeans 2 [1, 0, 0, 1] [(0, 1)], .silhouette, .silhouette, .destroy, .init, .kMeans 1 [0] [], .destroy] := by
  simp [Once]

/-- **C222, violated.** A second clustering forgets the clusters of the first: their blocks are never released, whatever is allocated. -/
theorem clusters_again_violated (avail : Nat → Bool) (k : Nat) (is : List Nat) (ms : List (Nat × Nat)) (h : ∀ i ∈ is, i < k) (mc : MC) (l : Led) (hb : l.live = weight mc) :
    ∃ r, kMeans avail false k is ms mc l = .ok r ∧ (destroy r.2.1 r.2.2).2.live = (mc.clusters.map blocks).sum := by
  obtain ⟨r, e, a, -⟩ := kMeans_spec avail k is ms mc l h
  refine ⟨r, e, ?_⟩
  rw [destroy_live, a, hb]
  simp only [weight, methodWeight]
  ring

/-- So for two clusterings of four samples, when all allocations succeed: eight blocks are left. -/
example : (match run (fun _ => true) [.init, .kMeans 2 [1, 0, 0, 1] [(0, 1)], .kMeans 2 [1, 0, 0, 1] [], .destroy] {} {} with | .ok r => r.2.live | _ => 0) = 8 := by decide +kernel

/-- **C222, violated.** With the initialisation of KKZ a sample that cannot be inserted leaves the vector of the mean behind, and a mean that cannot be allocated is undefined. -/
theorem clusters_kkz_violated :
    (match kMeans (fun t => t != 3) true 1 [0, 0] [] { error := true, lerr := true, core := true } ⟨0, 2⟩ with | .ok r => some (r.1, (destroy r.2.1 r.2.2).2.live) | _ => none) = some (false, 1) ∧
    (match kMeans (fun t => t != 2) true 1 [0, 0] [] { error := true, lerr := true, core := true } ⟨0, 2⟩ with | .ub => true | _ => false) = true := by decide +kernel

/-! ## X-means -/

theorem alloc_true (avail : Nat → Bool) (ha : ∀ t, avail t = true) (l : Led) : (alloc avail l).1 = true := ha l.t

theorem xMeans_live (avail : Nat → Bool) (ha : ∀ t, avail t = true) (km : Nat → List Nat × List (Nat × Nat)) (hkm : ∀ p, ∀ i ∈ (km p).1, i < 2) (test : Nat → Bool) :
    ∀ (fuel pos : Nat) (c : Cl) (l : Led) (x : Nat × List Cl × Led), xMeans avail km test fuel pos c l = .ok x → x.2.2.live - (x.2.1.map blocks).sum = l.live - blocks c := by
  intro fuel
  induction fuel with
  | zero => intro pos c l x h; simp [xMeans] at h
  | succ fuel ih =>
    intro pos c l x h
    unfold xMeans at h
    by_cases hc : c.cells < 10
    · rw [if_pos hc] at h
      simp only [Res.ok.injEq] at h
      rw [← h]
      simp
    rw [if_neg hc] at h
    obtain ⟨i1, i2⟩ := init_live avail l
    obtain ⟨m1, m2⟩ := methodCopy_live avail (init avail l).2.1 (init avail l).2.2
    have hi : (init avail l).1 = true := by
      unfold init
      simp only [alloc_true avail ha, Bool.not_true, Bool.false_eq_true, if_false]
    have hm : (methodCopy avail (init avail l).2.1 (init avail l).2.2).1 = true := by
      unfold methodCopy
      simp only [alloc_true avail ha, Bool.not_true, Bool.false_eq_true, if_false]
    simp only [hi, hm, Bool.not_true, Bool.false_eq_true, if_false] at h
    rw [i2] at m2
    obtain ⟨r, e, k1, -⟩ := kMeans_spec avail 2 (km pos).1 (km pos).2 (methodCopy avail (init avail l).2.1 (init avail l).2.2).2.1
      (methodCopy avail (init avail l).2.1 (init avail l).2.2).2.2 (hkm pos)
    have hw : weight (methodCopy avail (init avail l).2.1 (init avail l).2.2).2.1 = methodWeight (methodCopy avail (init avail l).2.1 (init avail l).2.2).2.1 := by
      simp [weight, methodWeight, m2]
    rw [← hw, m1, i1] at k1
    rw [e] at h
    simp only [Res.bind] at h
    cases hr : r.1 with
    | false => rw [hr] at h; simp at h
    | true =>
      rw [hr] at h
      simp only [Bool.not_true, Bool.false_eq_true, if_false] at h
      by_cases ht : test pos = true
      · rw [if_pos ht] at h
        simp only [Res.ok.injEq] at h
        rw [← h]
        simp [destroy_live, k1]
      · rw [if_neg ht] at h
        split at h
        · next hd tl hcl =>
          cases hx : xMeans avail km test fuel (pos+1) hd r.2.2 with
          | ub => rw [hx] at h; simp at h
          | fail => rw [hx] at h; simp at h
          | ok x1 =>
            rw [hx] at h
            dsimp only at h
            cases hy : xMeans avail km test fuel x1.1 tl x1.2.2 with
            | ub => rw [hy] at h; simp at h
            | fail => rw [hy] at h; simp at h
            | ok y =>
              rw [hy] at h
              simp only [Res.ok.injEq] at h
              have a := ih _ _ _ _ hx
              have b := ih _ _ _ _ hy
              rw [← h]
              simp only [destroy_live, clusterDestroy_live, List.map_append, List.sum_append]
              simp only [weight, hcl, List.map_cons, List.map_nil, List.sum_cons, List.sum_nil] at k1 ⊢
              linarith
        · cases h

/-- **C222 (what holds), X-means.** When all allocations succeed, clustering with X-means and destroying the clusters leaves nothing behind, however often clusters are divided. -/
theorem xMeans_released_partial (avail : Nat → Bool) (ha : ∀ t, avail t = true) (km : Nat → List Nat × List (Nat × Nat)) (hkm : ∀ p, ∀ i ∈ (km p).1, i < 2) (test : Nat → Bool) (fuel n : Nat) (mc : MC) (l : Led)
    (hc : mc.clusters = []) (hb : l.live = weight mc) (r : Bool × MC × Led) (h : zXMeans avail km test fuel n mc l = .ok r) : (destroy r.2.1 r.2.2).2.live = 0 := by
  have hw : weight mc = methodWeight mc := by simp [weight, methodWeight, hc]
  obtain ⟨h1, h2⟩ := allocClusters_live avail 1 mc l
  rw [hb, hw, sub_self] at h1
  rw [destroy_live]
  unfold zXMeans at h
  dsimp only at h
  cases hr : (allocClusters avail 1 mc l).1 with
  | false =>
    rw [hr] at h
    simp only [Bool.not_false, if_true, Res.ok.injEq] at h
    rw [← h]
    exact h1
  | true =>
    rw [hr] at h
    simp only [Bool.not_true, Bool.false_eq_true, if_false] at h
    obtain ⟨q, e, q1, -⟩ := inserts_spec avail (List.replicate n 0) (allocClusters avail 1 mc l).2.1 (allocClusters avail 1 mc l).2.2 (by
      intro i hi
      rw [h2 hr, List.eq_of_mem_replicate hi]
      exact Nat.one_pos)
    rw [h1] at q1
    unfold xInit at h
    rw [e] at h
    simp only [Res.bind] at h
    cases hq : q.1 with
    | false =>
      rw [hq] at h
      simp only [Bool.not_false, if_true, Res.ok.injEq] at h
      rw [← h]
      exact q1
    | true =>
      rw [hq] at h
      simp only [Bool.not_true, Bool.false_eq_true, if_false] at h
      split at h
      · next c hcl =>
        cases hx : xMeans avail km test fuel 0 c q.2.2 with
        | ub => rw [hx] at h; simp at h
        | fail => rw [hx] at h; simp at h
        | ok x =>
          rw [hx] at h
          simp only [Res.ok.injEq] at h
          have a := xMeans_live avail ha km hkm test fuel 0 c q.2.2 x hx
          rw [← h]
          simp only [weight, hcl, List.map_cons, List.map_nil, List.sum_cons, List.sum_nil] at q1 ⊢
          linarith
      · cases h

/-- Twelve samples divided once into six and six, by two clusters of two. -/
example : (match zXMeans (fun _ => true) (fun _ => ([1, 0, 0, 0, 0, 0, 0, 1, 1, 1, 1, 1], [])) (fun _ => false) 3 12 { error := true, lerr := true, core := true } ⟨0, 2⟩ with
    | .ok r => (r.2.1.clusters.map Cl.cells, r.2.2.live) | _ => ([], 0)) = ([6, 6], 18) := by decide +kernel

/-- **C222, violated.** X-means of ten samples or more leaves a vector behind when one that it works with cannot be allocated, and reports success. -/
theorem xMeans_leak_violated :
    (match zXMeans (fun t => t != 13) (fun _ => ([1, 0, 0, 0, 0, 0, 0, 1, 1, 1], [])) (fun _ => false) 3 10 { error := true, lerr := true, core := true } ⟨0, 2⟩ with
    | .ok r => (r.1, (destroy r.2.1 r.2.2).2.live) | _ => (false, 0)) = (true, 1) := by decide +kernel

end Zm.ClusterMem
