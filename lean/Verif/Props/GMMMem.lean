import Verif.Model.GMMMem
import Verif.Props.ClusterMem

/-! # C228: Gaussian mixture models release their memory -/

set_option linter.unusedSectionVars false

namespace Zm.GMMMem
open Zm
open Zm.ClusterMem (Led alloc free freeIf MC alloc_live freeIf_live weight)

/-- One for a block that is there. -/
def one (p : Option Nat) : Int := if p.isSome then 1 else 0

/-- The blocks of a unit without its cell. -/
def inside (u : GU) : Int := one u.core + one u.cov + one u.inv + one u.ci

/-- The blocks of the vector for errors. -/
def ptr : Ptr → Int
  | .vec _ => 1
  | _ => 0

/-- The blocks of a model. -/
def owned (g : GMM) : Int := (g.units.map fun u => 1 + inside u).sum + ptr g.error + one g.lerr

theorem vecAlloc_live (avail : Nat → Bool) (n : Nat) (l : Led) : (vecAlloc avail n l).2.live = l.live + one (vecAlloc avail n l).1 := by
  unfold vecAlloc
  split
  · simp [one]
  · have := alloc_live avail l
    dsimp only
    rw [this]
    cases (alloc avail l).1 <;> simp [one]

theorem freeOpt_live (p : Option Nat) (l : Led) : (freeOpt p l).live = l.live - one p := by
  unfold freeOpt one; rw [freeIf_live]

theorem vecAlloc_some (avail : Nat → Bool) (n : Nat) (l : Led) (h : (vecAlloc avail n l).1.isSome = true) : (vecAlloc avail n l).1 = some n ∧ n ≠ 0 := by
  unfold vecAlloc at h ⊢
  split at h
  · simp at h
  · rename_i hn
    rw [if_neg hn]
    dsimp only at h ⊢
    cases ha : (alloc avail l).1 with
    | false => rw [ha] at h; simp at h
    | true => exact ⟨rfl, hn⟩

theorem coreAlloc_live (avail : Nat → Bool) (n : Nat) (u : GU) (l : Led) :
    (coreAlloc avail n u l).2.2.live - inside (coreAlloc avail n u l).2.1 = l.live - inside u ∧
    ((coreAlloc avail n u l).1 = true → (coreAlloc avail n u l).2.1 = { u with core := some n }) := by
  unfold coreAlloc
  dsimp only
  refine ⟨?_, fun h => by rw [(vecAlloc_some _ _ _ h).1]⟩
  rw [vecAlloc_live, freeOpt_live]
  simp only [inside]
  ring

theorem errorAlloc_live (avail : Nat → Bool) (n : Nat) (u : GU) (l : Led) :
    (errorAlloc avail n u l).2.2.live - inside (errorAlloc avail n u l).2.1 = l.live - inside u ∧
    ((errorAlloc avail n u l).1 = true → (errorAlloc avail n u l).2.1 = { u with cov := some n, inv := some n, ci := some n }) := by
  unfold errorAlloc
  dsimp only
  constructor
  · rw [vecAlloc_live, vecAlloc_live, vecAlloc_live, freeOpt_live, freeOpt_live, freeOpt_live]
    simp only [inside]
    ring
  · intro h
    simp only [Bool.and_eq_true] at h
    rw [(vecAlloc_some _ _ _ h.1.1).1, (vecAlloc_some _ _ _ h.1.2).1, (vecAlloc_some _ _ _ h.2).1]

theorem each_live (f : GU → Led → Bool × GU × Led) (hf : ∀ u l, (f u l).2.2.live - inside (f u l).2.1 = l.live - inside u) : ∀ (us : List GU) (l : Led),
    (each f us l).2.2.live - ((each f us l).2.1.map fun u => 1 + inside u).sum = l.live - (us.map fun u => 1 + inside u).sum ∧ (each f us l).2.1.length = us.length
  | [], l => by simp [each]
  | u :: us, l => by
    have h := hf u l
    simp only [each]
    cases hb : (f u l).1 with
    | false =>
      simp only [Bool.not_false, if_true, List.map_cons, List.sum_cons, List.length_cons, and_true]
      linarith
    | true =>
      obtain ⟨h2, h3⟩ := each_live f hf us (f u l).2.2
      simp only [Bool.not_true, Bool.false_eq_true, if_false, List.map_cons, List.sum_cons, List.length_cons, h3, and_true]
      linarith

theorem each_all (f : GU → Led → Bool × GU × Led) (P : GU → GU) (hf : ∀ u l, (f u l).1 = true → (f u l).2.1 = P u) : ∀ (us : List GU) (l : Led),
    (each f us l).1 = true → (each f us l).2.1 = us.map P
  | [], l => by simp [each]
  | u :: us, l => by
    simp only [each]
    cases hb : (f u l).1 with
    | false => simp
    | true =>
      simp only [Bool.not_true, Bool.false_eq_true, if_false, List.map_cons]
      intro h
      rw [each_all f P hf us _ h, hf u l hb]

theorem unitsFree_live : ∀ (us : List GU) (l : Led), (unitsFree us l).live = l.live - (us.map fun u => 1 + inside u).sum
  | [], l => by simp [unitsFree]
  | u :: us, l => by
    rw [unitsFree, unitsFree_live us]
    simp only [free, unitFree, freeOpt_live, List.map_cons, List.sum_cons, inside]
    ring

theorem destroy_spec (g : GMM) (l : Led) (hg : g.error ≠ .gone) : ∃ l', destroy g l = .ok ({}, l') ∧ l'.live = l.live - owned g := by
  unfold destroy freePtr owned
  have hu := unitsFree_live g.units l
  cases he : g.error with
  | gone => exact absurd he hg
  | null =>
    refine ⟨_, rfl, ?_⟩
    rw [freeOpt_live, hu]; simp only [ptr]; ring
  | vec n =>
    refine ⟨_, rfl, ?_⟩
    rw [freeOpt_live]; simp only [free, hu, ptr]; ring

theorem methodError_spec (avail : Nat → Bool) (n : Nat) (hn : n ≠ 0) (g : GMM) (l : Led) (hg : g.error ≠ .gone) :
    ∃ r, methodError avail n g l = .ok r ∧ r.2.2.live - owned r.2.1 = l.live - owned g ∧ r.2.1.error ≠ .gone ∧
      r.2.1.units = g.units ∧ r.2.1.coreSize = g.coreSize ∧ r.2.1.lerr = g.lerr ∧ (r.1 = true → r.2.1.error = .vec n) := by
  have key : ∀ l1 : Led, l1.live = l.live - ptr g.error → (let a := alloc avail l1
      ∃ r, (Res.ok (a.1, { g with error := if a.1 then .vec n else .null }, a.2) : Res (Bool × GMM × Led)) = .ok r ∧ r.2.2.live - owned r.2.1 = l.live - owned g ∧ r.2.1.error ≠ .gone ∧
      r.2.1.units = g.units ∧ r.2.1.coreSize = g.coreSize ∧ r.2.1.lerr = g.lerr ∧ (r.1 = true → r.2.1.error = .vec n)) := by
    intro l1 h1
    have h2 := alloc_live avail l1
    dsimp only
    cases ha : (alloc avail l1).1 with
    | false =>
      rw [ha] at h2
      refine ⟨_, rfl, ?_, by simp, rfl, rfl, rfl, by simp⟩
      dsimp only
      rw [h2, h1]; simp [owned, ptr]; ring
    | true =>
      rw [ha] at h2
      refine ⟨_, rfl, ?_, by simp, rfl, rfl, rfl, by simp⟩
      dsimp only
      rw [h2, h1]; simp [owned, ptr]; ring
  unfold methodError freePtr
  cases he : g.error with
  | gone => exact absurd he hg
  | null => simp only [Res.bind, if_neg hn]; exact key l (by rw [he]; simp [ptr])
  | vec m => simp only [Res.bind, if_neg hn]; exact key (free l) (by rw [he]; simp [ptr, free])

theorem methodLoaded_spec (avail : Nat → Bool) (g : GMM) (l : Led) (hg : g.error ≠ .gone) :
    ∃ r, methodLoaded avail g l = .ok r ∧ r.2.2.live - owned r.2.1 = l.live - owned g ∧ r.2.1.error = g.error ∧ r.2.1.units = g.units ∧ r.2.1.coreSize = g.coreSize ∧
      (r.1 = true → r.2.1.lerr.isSome = true) := by
  unfold methodLoaded
  cases he : g.error with
  | gone => exact absurd he hg
  | null =>
    refine ⟨_, rfl, ?_, rfl, rfl, rfl, fun h => h⟩
    dsimp only
    rw [vecAlloc_live, freeOpt_live]; simp only [owned, he]; ring
  | vec n =>
    refine ⟨_, rfl, ?_, rfl, rfl, rfl, fun h => h⟩
    dsimp only
    rw [vecAlloc_live, freeOpt_live]; simp only [owned, he]; ring

/-- The model can be used for an estimation: the vector for errors is there and all sizes fit. -/
def Ready (g : GMM) : Prop := g.coreSize ≠ 0 ∧ ∃ n, n ≠ 0 ∧ g.error = .vec n ∧ ∀ u ∈ g.units, u = ⟨some g.coreSize, some n, some n, some n⟩

theorem Ready.fits {g : GMM} {n : Nat} (h : Ready g) (hn : g.error = .vec n) : fits g n = true := by
  obtain ⟨_, m, _, he, hu⟩ := h
  rw [hn] at he
  simp only [Ptr.vec.injEq] at he
  subst he
  unfold GMMMem.fits
  rw [List.all_eq_true]
  intro u hu'
  rw [hu u hu']
  simp

theorem setError_spec (avail : Nat → Bool) (n : Nat) (hn : n ≠ 0) (g : GMM) (l : Led) (hg : g.error ≠ .gone) :
    ∃ r, setError avail n g l = .ok r ∧ r.2.2.live - owned r.2.1 = l.live - owned g ∧ r.2.1.error ≠ .gone ∧ r.2.1.units.length = g.units.length ∧
      r.2.1.coreSize = g.coreSize ∧ (r.1 = true → Ready g → Ready r.2.1) := by
  obtain ⟨r, e, h1, h2, h3, h4, h5, h6⟩ := methodError_spec avail n hn g l hg
  unfold setError
  rw [e]
  simp only [Res.bind]
  cases hr : r.1 with
  | false => exact ⟨r, rfl, h1, h2, by rw [h3], h4, by simp [hr]⟩
  | true =>
    obtain ⟨k1, k2⟩ := each_live (errorAlloc avail n) (fun u l => (errorAlloc_live avail n u l).1) r.2.1.units r.2.2
    have k3 := each_all (errorAlloc avail n) _ (fun u l => (errorAlloc_live avail n u l).2) r.2.1.units r.2.2
    refine ⟨_, rfl, ?_, h2, ?_, h4, ?_⟩
    · simp only [owned] at h1 ⊢; linarith
    · show (each _ _ _).2.1.length = _; rw [k2, h3]
    · rintro ht ⟨hc, m, hm, he, hu⟩
      refine ⟨by rw [← h4] at hc; exact hc, n, hn, h6 hr, ?_⟩
      intro u hu'
      have hu2 : u ∈ (each (errorAlloc avail n) r.2.1.units r.2.2).2.1 := hu'
      rw [k3 ht, h3] at hu2
      obtain ⟨v, hv, rfl⟩ := List.mem_map.1 hu2
      rw [hu v hv]
      show _ = (⟨some r.2.1.coreSize, _, _, _⟩ : GU)
      rw [h4]

theorem setCore_spec (avail : Nat → Bool) (n : Nat) (g : GMM) (l : Led) :
    ∃ r, setCore avail n g l = .ok r ∧ r.2.2.live - owned r.2.1 = l.live - owned g ∧ r.2.1.error = g.error ∧ r.2.1.units.length = g.units.length ∧
      (r.1 = true → Ready g → Ready r.2.1) := by
  unfold setCore
  split
  · exact ⟨_, rfl, rfl, rfl, rfl, by simp⟩
  · rename_i hn
    obtain ⟨k1, k2⟩ := each_live (coreAlloc avail n) (fun u l => (coreAlloc_live avail n u l).1) g.units l
    have k3 := each_all (coreAlloc avail n) _ (fun u l => (coreAlloc_live avail n u l).2) g.units l
    refine ⟨_, rfl, ?_, rfl, k2, ?_⟩
    · simp only [owned]; linarith
    · rintro ht ⟨hc, m, hm, he, hu⟩
      refine ⟨hn, m, hm, he, ?_⟩
      intro u hu'
      have hu2 : u ∈ (each (coreAlloc avail n) g.units l).2.1 := hu'
      rw [k3 ht] at hu2
      obtain ⟨v, hv, rfl⟩ := List.mem_map.1 hu2
      rw [hu v hv]

theorem methodLoaded_ready {avail : Nat → Bool} {g : GMM} {l : Led} {r : Bool × GMM × Led} (h2 : r.2.1.error = g.error) (h3 : r.2.1.units = g.units) (h4 : r.2.1.coreSize = g.coreSize)
    (h : Ready g) : Ready r.2.1 := by
  unfold Ready at h ⊢
  rw [h2, h3, h4]
  exact h

theorem setLS_spec (avail : Nat → Bool) (g : GMM) (l : Led) (hg : g.error ≠ .gone) :
    ∃ r, setLS avail g l = .ok r ∧ r.2.2.live - owned r.2.1 = l.live - owned g ∧ r.2.1.error ≠ .gone ∧ r.2.1.units.length = g.units.length ∧ (r.1 = true → Ready g → Ready r.2.1) := by
  obtain ⟨r, e, h1, h2, h3, h4, h5⟩ := setError_spec avail 1 (by omega) g l hg
  unfold setLS
  rw [e]
  simp only [Res.bind]
  cases hr : r.1 with
  | false => exact ⟨r, rfl, h1, h2, h3, by simp [hr]⟩
  | true =>
    obtain ⟨s, e2, k1, k2, k3, k5⟩ := setCore_spec avail r.2.1.coreSize r.2.1 r.2.2
    simp only [Bool.not_true, Bool.false_eq_true, if_false, e2]
    cases hs : s.1 with
    | false => exact ⟨s, rfl, by rw [k1, h1], by rw [k2]; exact h2, by rw [k3, h3], by simp [hs]⟩
    | true =>
      obtain ⟨w, e3, j1, j2, j3, j4, j5⟩ := methodLoaded_spec avail s.2.1 s.2.2 (by rw [k2]; exact h2)
      refine ⟨w, by simp [e3], by rw [j1, k1, h1], by rw [j2, k2]; exact h2, by rw [j3, k3, h3], fun _ hR => ?_⟩
      exact methodLoaded_ready (avail := avail) (l := l) j2 j3 j4 (k5 hs (h5 hr hR))

theorem unitAlloc_live (avail : Nat → Bool) (n : Nat) (u : GU) (l : Led) :
    (unitAlloc avail n u l).2.2.live - inside (unitAlloc avail n u l).2.1 = l.live - inside u ∧
    ((unitAlloc avail n u l).1 = true → (unitAlloc avail n u l).2.1 = ⟨some n, some n, some n, some n⟩) := by
  obtain ⟨h1, h2⟩ := coreAlloc_live avail n u l
  unfold unitAlloc
  dsimp only
  cases hc : (coreAlloc avail n u l).1 with
  | false => simp [hc, h1]
  | true =>
    obtain ⟨k1, k2⟩ := errorAlloc_live avail n (coreAlloc avail n u l).2.1 (coreAlloc avail n u l).2.2
    simp only [Bool.not_true, Bool.false_eq_true, if_false]
    refine ⟨by rw [k1, h1], fun h => ?_⟩
    rw [k2 h, h2 hc]

theorem initLoop_spec (avail : Nat → Bool) (n : Nat) : ∀ (k : Nat) (us : List GU) (l : Led), (∀ u ∈ us, u = ⟨some n, some n, some n, some n⟩) →
    (initLoop avail n k us l).1 = true →
    (initLoop avail n k us l).2.2.live - ((initLoop avail n k us l).2.1.map fun u => 1 + inside u).sum = l.live - (us.map fun u => 1 + inside u).sum ∧
      (initLoop avail n k us l).2.1.length = us.length + k ∧ ∀ u ∈ (initLoop avail n k us l).2.1, u = ⟨some n, some n, some n, some n⟩
  | 0, us, l, hu, _ => by simpa [initLoop] using hu
  | k+1, us, l, hu, h => by
    have h1 := alloc_live avail l
    simp only [initLoop] at h ⊢
    cases ha : (alloc avail l).1 with
    | false => simp [ha] at h
    | true =>
      rw [ha] at h1
      obtain ⟨u1, u2⟩ := unitAlloc_live avail n {} (alloc avail l).2
      simp only [ha, Bool.not_true, Bool.false_eq_true, if_false] at h ⊢
      cases hb : (unitAlloc avail n {} (alloc avail l).2).1 with
      | false => simp [hb] at h
      | true =>
        simp only [hb, Bool.not_true, Bool.false_eq_true, if_false] at h ⊢
        obtain ⟨j1, j2, j3⟩ := initLoop_spec avail n k _ _ (by
          intro u hu'
          rcases List.mem_cons.1 hu' with rfl | hu'
          · exact u2 hb
          · exact hu u hu') h
        refine ⟨?_, by rw [j2, List.length_cons]; omega, j3⟩
        rw [j1, List.map_cons, List.sum_cons]
        have : inside ({} : GU) = 0 := rfl
        rw [this, h1] at u1
        simp only [if_true] at u1
        linarith

/-- A model that has been initialised is ready, and all its blocks are its own. -/
theorem init_spec (avail : Nat → Bool) (k n : Nat) (l : Led) (g : GMM) (l' : Led) (h : init avail k n l = .ok (true, g, l')) :
    g.units.length = k ∧ Ready g ∧ l'.live - owned g = l.live := by
  unfold init at h
  dsimp only at h
  cases ha : (initLoop avail n k [] l).1 with
  | false =>
    simp only [ha, Bool.not_false, if_true] at h
    obtain ⟨l2, e, _⟩ := destroy_spec { units := (initLoop avail n k [] l).2.1 } (initLoop avail n k [] l).2.2 (by simp)
    rw [e] at h
    simp [Res.bind] at h
  | true =>
    obtain ⟨j1, j2, j3⟩ := initLoop_spec avail n k [] l (by simp) ha
    simp only [ha, Bool.not_true, Bool.false_eq_true, if_false] at h
    unfold methodDefault at h
    dsimp only at h
    by_cases hn : n = 0
    · rw [if_pos hn] at h
      simp only [Res.bind, Bool.not_false, if_true] at h
      obtain ⟨l2, e, _⟩ := destroy_spec { units := (initLoop avail n k [] l).2.1 } (initLoop avail n k [] l).2.2 (by simp)
      rw [e] at h
      simp [Res.bind] at h
    · rw [if_neg hn] at h
      obtain ⟨r, e, a1, a2, a3, a4, a5, a6⟩ := methodError_spec avail n hn { units := (initLoop avail n k [] l).2.1, coreSize := n } (initLoop avail n k [] l).2.2 (by simp)
      have e' := e
      rw [e'] at h
      simp only [Res.bind] at h
      cases hr : r.1 with
      | false =>
        simp only [hr, Bool.not_false, if_true] at h
        obtain ⟨l2, e, _⟩ := destroy_spec { r.2.1 with coreSize := 0, error := .null, lerr := none } r.2.2 (by simp)
        rw [e] at h
        simp at h
      | true =>
        simp only [hr, Bool.not_true, Bool.false_eq_true, if_false] at h
        obtain ⟨w, e2, b1, b2, b3, b4, b5⟩ := methodLoaded_spec avail r.2.1 r.2.2 a2
        rw [e2] at h
        simp only [] at h
        cases hw : w.1 with
        | false =>
          simp only [hw, Bool.not_false, if_true] at h
          obtain ⟨l2, e, _⟩ := destroy_spec { w.2.1 with coreSize := 0, error := .null, lerr := none } w.2.2 (by simp)
          rw [e] at h
          simp at h
        | true =>
          simp only [hw, Bool.not_true, Bool.false_eq_true, if_false, Res.ok.injEq] at h
          subst h
          dsimp only at b1 b2 b3 b4 b5
          refine ⟨by rw [b3, a3]; simpa using j2, ⟨by rw [b4, a4]; exact hn, n, hn, by rw [b2]; exact a6 hr, ?_⟩, ?_⟩
          · rw [b3, a3, b4, a4]
            exact j3
          · rw [b1, a1]
            simp only [owned, ptr, one, Option.isSome_none, Bool.false_eq_true, if_false]
            have : (initLoop avail n k [] l).2.2.live - ((initLoop avail n k [] l).2.1.map fun u => 1 + inside u).sum = l.live := by rw [j1]; simp
            linarith

/-- An estimation that returns a model leaves no block behind; whatever happens it takes none away. -/
theorem createEM_live (avail : Nat → Bool) (is : List Nat) (ms : List (Nat × Nat)) (g : GMM) (l : Led) (r : Bool × Led) (his : ∀ i ∈ is, i < g.units.length)
    (h : createEM avail is ms g l = .ok r) : l.live ≤ r.2.live ∧ (r.1 = true → r.2.live = l.live) := by
  have hw : ∀ mc : MC, mc.clusters = [] → 0 ≤ weight mc := by
    intro mc hc
    simp only [weight, hc, List.map_nil, List.sum_nil]
    split <;> split <;> simp
  unfold createEM at h
  dsimp only at h
  by_cases hc0 : g.coreSize = 0
  · simp only [if_pos hc0, Bool.not_false, if_true, Res.ok.injEq] at h
    subst h
    simp
  rw [if_neg hc0] at h
  obtain ⟨i1, i2⟩ := ClusterMem.init_live avail l
  have iw := hw _ i2
  cases hi : (ClusterMem.init avail l).1 with
  | false =>
    simp only [hi, Bool.not_false, if_true, Res.ok.injEq] at h
    subst h
    refine ⟨by dsimp only; linarith, by simp⟩
  | true =>
    simp only [hi, Bool.not_true, Bool.false_eq_true, if_false] at h
    cases he : g.error with
    | gone => rw [he] at h; simp at h
    | null =>
      rw [he] at h
      simp only [Res.ok.injEq] at h
      subst h
      refine ⟨?_, by simp⟩
      dsimp only
      rw [freeIf_live]
      have : (if (ClusterMem.init avail l).2.1.error = true then (1 : Int) else 0) ≤ weight (ClusterMem.init avail l).2.1 := by
        simp only [weight, i2, List.map_nil, List.sum_nil]
        split <;> split <;> simp
      linarith
    | vec n =>
      rw [he] at h
      simp only [] at h
      obtain ⟨m1, m2⟩ := ClusterMem.methodCopy_live avail (ClusterMem.init avail l).2.1 (ClusterMem.init avail l).2.2
      generalize ClusterMem.methodCopy avail (ClusterMem.init avail l).2.1 (ClusterMem.init avail l).2.2 = m at h m1 m2
      have mw := hw m.2.1 (by rw [m2, i2])
      cases hm : m.1 with
      | false =>
        simp only [hm, Bool.not_false, if_true, Res.ok.injEq] at h
        subst h
        refine ⟨by dsimp only; linarith, by simp⟩
      | true =>
        simp only [hm, Bool.not_true, Bool.false_eq_true, if_false] at h
        have a1 := vecAlloc_live avail (g.units.length * is.length) m.2.2
        generalize vecAlloc avail (g.units.length * is.length) m.2.2 = a at h a1
        have b1 := vecAlloc_live avail (g.units.length * is.length) a.2
        generalize vecAlloc avail (g.units.length * is.length) a.2 = b at h b1
        have c1 := vecAlloc_live avail is.length b.2
        generalize vecAlloc avail is.length b.2 = c at h c1
        have d1 := vecAlloc_live avail g.units.length c.2
        generalize vecAlloc avail g.units.length c.2 = d at h d1
        have hdone : ∀ x : Led, (freeOpt d.1 (freeOpt c.1 (freeOpt b.1 (freeOpt a.1 x)))).live = x.live - one a.1 - one b.1 - one c.1 - one d.1 := by
          intro x; rw [freeOpt_live, freeOpt_live, freeOpt_live, freeOpt_live]
        cases hs : (a.1.isSome && b.1.isSome && c.1.isSome && d.1.isSome) with
        | false =>
          simp only [hs, Bool.not_false, if_true, Res.ok.injEq] at h
          subst h
          refine ⟨?_, by simp⟩
          dsimp only
          rw [hdone]
          linarith
        | true =>
          simp only [hs, Bool.not_true, Bool.false_eq_true, if_false] at h
          obtain ⟨q, e, q1, _⟩ := ClusterMem.kMeans_spec avail g.units.length is ms m.2.1 d.2 his
          rw [e] at h
          simp only [Res.bind] at h
          cases hf : GMMMem.fits g n with
          | false => simp [hf] at h
          | true =>
            simp only [hf, Bool.not_true, Bool.false_eq_true, if_false, Res.ok.injEq] at h
            subst h
            have hmw : ClusterMem.methodWeight m.2.1 = weight m.2.1 := by
              simp [ClusterMem.methodWeight, weight, m2, i2]
            have : (freeOpt d.1 (freeOpt c.1 (freeOpt b.1 (freeOpt a.1 (ClusterMem.destroy q.2.1 q.2.2).2)))).live = l.live := by
              rw [hdone, ClusterMem.destroy_live]
              rw [hmw] at q1
              linarith
            exact ⟨le_of_eq this.symm, fun _ => this⟩

/-- The calls that are considered: sizes are positive, and the samples go to clusters that exist. -/
def Valid (k : Nat) : Op → Prop
  | .setError n => n ≠ 0
  | .setCore _ => True
  | .setLoaded => True
  | .setLS => True
  | .createEM is _ => ∀ i ∈ is, i < k

/-- Whether a call is an estimation. -/
def isEM : Op → Bool
  | .createEM _ _ => true
  | _ => false

theorem step_spec (avail : Nat → Bool) (o : Op) (g : GMM) (l : Led) (hg : g.error ≠ .gone) (ho : Valid g.units.length o) (r : Bool × GMM × Led) (h : step avail o g l = .ok r) :
    r.2.1.error ≠ .gone ∧ r.2.1.units.length = g.units.length ∧ l.live - owned g ≤ r.2.2.live - owned r.2.1 ∧
      ((isEM o = true → r.1 = true) → r.2.2.live - owned r.2.1 = l.live - owned g) := by
  cases o with
  | setError n =>
    obtain ⟨s, e, h1, h2, h3, _⟩ := setError_spec avail n ho g l hg
    rw [step, e, Res.ok.injEq] at h
    subst h
    exact ⟨h2, h3, le_of_eq h1.symm, fun _ => h1⟩
  | setCore n =>
    obtain ⟨s, e, h1, h2, h3, _⟩ := setCore_spec avail n g l
    rw [step, e, Res.ok.injEq] at h
    subst h
    exact ⟨by rw [h2]; exact hg, h3, le_of_eq h1.symm, fun _ => h1⟩
  | setLoaded =>
    obtain ⟨s, e, h1, h2, h3, _⟩ := methodLoaded_spec avail g l hg
    rw [step, e, Res.ok.injEq] at h
    subst h
    exact ⟨by rw [h2]; exact hg, by rw [h3], le_of_eq h1.symm, fun _ => h1⟩
  | setLS =>
    obtain ⟨s, e, h1, h2, h3, _⟩ := setLS_spec avail g l hg
    rw [step, e, Res.ok.injEq] at h
    subst h
    exact ⟨h2, h3, le_of_eq h1.symm, fun _ => h1⟩
  | createEM is ms =>
    rw [step] at h
    cases he : createEM avail is ms g l with
    | ok q =>
      rw [he] at h
      simp only [Res.bind, Res.ok.injEq] at h
      subst h
      obtain ⟨h1, h2⟩ := createEM_live avail is ms g l q ho he
      refine ⟨hg, rfl, by dsimp only; linarith, fun hh => ?_⟩
      dsimp only
      rw [h2 (hh rfl)]
    | fail => rw [he] at h; simp [Res.bind] at h
    | ub => rw [he] at h; simp [Res.bind] at h

theorem run_spec (avail : Nat → Bool) : ∀ (ops : List Op) (g : GMM) (l : Led) (r : List Bool × GMM × Led), g.error ≠ .gone → (∀ o ∈ ops, Valid g.units.length o) →
    run avail ops g l = .ok r → r.2.1.error ≠ .gone ∧ l.live - owned g ≤ r.2.2.live - owned r.2.1 ∧
      ((∀ p ∈ ops.zip r.1, isEM p.1 = true → p.2 = true) → r.2.2.live - owned r.2.1 = l.live - owned g)
  | [], g, l, r, hg, _, h => by
    simp only [run, Res.ok.injEq] at h
    subst h
    exact ⟨hg, le_refl _, fun _ => rfl⟩
  | o :: os, g, l, r, hg, ho, h => by
    rw [run] at h
    cases hs : step avail o g l with
    | ok s =>
      rw [hs] at h
      obtain ⟨h1, h2, h3, h4⟩ := step_spec avail o g l hg (ho o (by simp)) s hs
      simp only [Res.bind] at h
      cases hq : run avail os s.2.1 s.2.2 with
      | ok q =>
        rw [hq] at h
        simp only [Res.ok.injEq] at h
        subst h
        obtain ⟨k1, k2, k3⟩ := run_spec avail os s.2.1 s.2.2 q h1 (by rw [h2]; exact fun p hp => ho p (by simp [hp])) hq
        refine ⟨k1, le_trans h3 k2, fun hh => ?_⟩
        rw [k3 (fun p hp => hh p (by simp [List.zip_cons_cons, hp])), h4 (hh (o, s.1) (by simp))]
      | fail => rw [hq] at h; simp at h
      | ub => rw [hq] at h; simp at h
    | fail => rw [hs] at h; simp [Res.bind] at h
    | ub => rw [hs] at h; simp [Res.bind] at h

/-- **C228.** A model that has been initialised, given functions with positive sizes and estimated any number of times, whatever allocations fail, can be destroyed, and nothing that was there before
is released; if no estimation has failed, everything is. -/
theorem zGMM_history_partial (avail : Nat → Bool) (k n : Nat) (l : Led) (g : GMM) (l1 : Led) (hi : init avail k n l = .ok (true, g, l1))
    (ops : List Op) (hv : ∀ o ∈ ops, Valid k o) (r : List Bool × GMM × Led) (hr : run avail ops g l1 = .ok r) :
    ∃ l2, destroy r.2.1 r.2.2 = .ok ({}, l2) ∧ l.live ≤ l2.live ∧ ((∀ p ∈ ops.zip r.1, isEM p.1 = true → p.2 = true) → l2.live = l.live) := by
  obtain ⟨h1, ⟨_, m, _, he, _⟩, h3⟩ := init_spec avail k n l g l1 hi
  obtain ⟨k1, k2, k3⟩ := run_spec avail ops g l1 r (by rw [he]; simp) (by rw [h1]; exact hv) hr
  obtain ⟨l2, e, hl⟩ := destroy_spec r.2.1 r.2.2 k1
  refine ⟨l2, e, by rw [hl]; linarith, fun hh => ?_⟩
  rw [hl, k3 hh, h3]

/-! ## With enough memory -/

theorem vecAlloc_full {avail : Nat → Bool} (ha : ∀ t, avail t = true) {n : Nat} (hn : n ≠ 0) (l : Led) : (vecAlloc avail n l).1 = some n := by
  simp [vecAlloc, hn, alloc, ha]

theorem each_full (f : GU → Led → Bool × GU × Led) (hf : ∀ u l, (f u l).1 = true) : ∀ (us : List GU) (l : Led), (each f us l).1 = true
  | [], _ => rfl
  | u :: us, l => by simp [each, hf, each_full f hf us]

theorem methodError_full {avail : Nat → Bool} (ha : ∀ t, avail t = true) {n : Nat} (hn : n ≠ 0) (g : GMM) (l : Led) (r : Bool × GMM × Led) (h : methodError avail n g l = .ok r) : r.1 = true := by
  unfold methodError at h
  cases hp : freePtr g.error l with
  | ok l1 => rw [hp] at h; simp only [Res.bind, if_neg hn, Res.ok.injEq] at h; subst h; simp [alloc, ha]
  | fail => rw [hp] at h; simp [Res.bind] at h
  | ub => rw [hp] at h; simp [Res.bind] at h

theorem setError_full {avail : Nat → Bool} (ha : ∀ t, avail t = true) {n : Nat} (hn : n ≠ 0) (g : GMM) (l : Led) (r : Bool × GMM × Led) (h : setError avail n g l = .ok r) : r.1 = true := by
  unfold setError at h
  cases hp : methodError avail n g l with
  | ok q =>
    have hq := methodError_full ha hn g l q hp
    rw [hp] at h
    simp only [Res.bind, hq, Bool.not_true, Bool.false_eq_true, if_false, Res.ok.injEq] at h
    subst h
    exact each_full _ (fun u l => by simp [errorAlloc, vecAlloc_full ha hn]) _ _
  | fail => rw [hp] at h; simp [Res.bind] at h
  | ub => rw [hp] at h; simp [Res.bind] at h

theorem setCore_full {avail : Nat → Bool} (ha : ∀ t, avail t = true) {n : Nat} (hn : n ≠ 0) (g : GMM) (l : Led) (r : Bool × GMM × Led) (h : setCore avail n g l = .ok r) : r.1 = true := by
  unfold setCore at h
  simp only [if_neg hn, Res.ok.injEq] at h
  subst h
  exact each_full _ (fun u l => by simp [coreAlloc, vecAlloc_full ha hn]) _ _

theorem methodLoaded_full {avail : Nat → Bool} (ha : ∀ t, avail t = true) (g : GMM) (l : Led) (hg : Ready g) (r : Bool × GMM × Led) (h : methodLoaded avail g l = .ok r) : r.1 = true := by
  obtain ⟨_, n, hn, he, _⟩ := hg
  unfold methodLoaded at h
  rw [he] at h
  simp only [Res.ok.injEq] at h
  subst h
  simp [vecAlloc_full ha hn]

theorem initLoop_full {avail : Nat → Bool} (ha : ∀ t, avail t = true) {n : Nat} (hn : n ≠ 0) : ∀ (k : Nat) (us : List GU) (l : Led), (initLoop avail n k us l).1 = true
  | 0, _, _ => rfl
  | k+1, us, l => by
    have h1 : (alloc avail l).1 = true := ha _
    have h2 : (unitAlloc avail n {} (alloc avail l).2).1 = true := by simp [unitAlloc, coreAlloc, errorAlloc, vecAlloc_full ha hn]
    simp only [initLoop, h1, h2, Bool.not_true, Bool.false_eq_true, if_false]
    exact initLoop_full ha hn k _ _

theorem init_full {avail : Nat → Bool} (ha : ∀ t, avail t = true) (k : Nat) {n : Nat} (hn : n ≠ 0) (l : Led) : ∃ g l', init avail k n l = .ok (true, g, l') := by
  unfold init
  have h1 := initLoop_full ha hn k [] l
  simp only [h1, Bool.not_true, Bool.false_eq_true, if_false, methodDefault, if_neg hn]
  obtain ⟨r, e, a1, a2, a3, a4, a5, a6⟩ := methodError_spec avail n hn { units := (initLoop avail n k [] l).2.1, coreSize := n } (initLoop avail n k [] l).2.2 (by simp)
  have hr := methodError_full ha hn _ _ r e
  obtain ⟨w, e2, b1, b2, b3, b4, b5⟩ := methodLoaded_spec avail r.2.1 r.2.2 a2
  have hw : w.1 = true := by
    unfold methodLoaded at e2
    rw [a6 hr] at e2
    simp only [Res.ok.injEq] at e2
    subst e2
    simp [vecAlloc_full ha hn]
  refine ⟨w.2.1, w.2.2, ?_⟩
  simp only [e, Res.bind, hr, Bool.not_true, Bool.false_eq_true, if_false, e2, hw]
  rw [← hw]

/-- An estimation of a model that is ready is defined, and with enough memory it returns the model. -/
theorem createEM_full {avail : Nat → Bool} (ha : ∀ t, avail t = true) (is : List Nat) (ms : List (Nat × Nat)) (g : GMM) (l : Led) (hg : Ready g) (hu : g.units ≠ []) (hne : is ≠ [])
    (his : ∀ i ∈ is, i < g.units.length) : ∃ l', createEM avail is ms g l = .ok (true, l') := by
  have hk : g.units.length ≠ 0 := by simpa using hu
  have hs : is.length ≠ 0 := by simpa using hne
  have hg' := hg
  obtain ⟨hc, n, hn, he, _⟩ := hg'
  have h1 : (ClusterMem.init avail l).1 = true := by simp [ClusterMem.init, alloc, ha]
  have h2 : ∀ mc l, (ClusterMem.methodCopy avail mc l).1 = true := by intro mc l; simp [ClusterMem.methodCopy, alloc, ha]
  have hks : g.units.length * is.length ≠ 0 := Nat.mul_ne_zero hk hs
  unfold createEM
  simp only [if_neg hc, h1, Bool.not_true, Bool.false_eq_true, if_false, he, h2, vecAlloc_full ha hks, vecAlloc_full ha hs, vecAlloc_full ha hk, Option.isSome_some, Bool.and_self]
  obtain ⟨q, e, q1, _⟩ := ClusterMem.kMeans_spec avail g.units.length is ms (ClusterMem.methodCopy avail (ClusterMem.init avail l).2.1 (ClusterMem.init avail l).2.2).2.1 (vecAlloc avail g.units.length (vecAlloc avail is.length (vecAlloc avail (g.units.length * is.length) (vecAlloc avail (g.units.length * is.length) (ClusterMem.methodCopy avail (ClusterMem.init avail l).2.1 (ClusterMem.init avail l).2.2).2.2).2).2).2).2 his
  rw [e]
  simp only [Res.bind, hg.fits he, Bool.not_true, Bool.false_eq_true, if_false]
  exact ⟨_, rfl⟩

/-- The calls that succeed with enough memory. -/
def Sound (k : Nat) : Op → Prop
  | .setError n => n ≠ 0
  | .setCore n => n ≠ 0
  | .setLoaded => True
  | .setLS => True
  | .createEM is _ => is ≠ [] ∧ ∀ i ∈ is, i < k

theorem step_full {avail : Nat → Bool} (ha : ∀ t, avail t = true) (o : Op) (g : GMM) (l : Led) (hg : Ready g) (hu : g.units ≠ []) (ho : Sound g.units.length o) :
    ∃ g' l', step avail o g l = .ok (true, g', l') ∧ Ready g' ∧ g'.units.length = g.units.length := by
  have hg' : g.error ≠ .gone := by obtain ⟨_, n, _, he, _⟩ := hg; rw [he]; simp
  cases o with
  | setError n =>
    obtain ⟨s, e, h1, h2, h3, h4, h5⟩ := setError_spec avail n ho g l hg'
    have := setError_full ha ho g l s e
    refine ⟨s.2.1, s.2.2, ?_, h5 this hg, h3⟩
    rw [step, e, ← this]
  | setCore n =>
    obtain ⟨s, e, h1, h2, h3, h5⟩ := setCore_spec avail n g l
    have := setCore_full ha ho g l s e
    refine ⟨s.2.1, s.2.2, ?_, h5 this hg, h3⟩
    rw [step, e, ← this]
  | setLoaded =>
    obtain ⟨s, e, h1, h2, h3, h4, h5⟩ := methodLoaded_spec avail g l hg'
    have := methodLoaded_full ha g l hg s e
    refine ⟨s.2.1, s.2.2, ?_, methodLoaded_ready (avail := avail) (l := l) h2 h3 h4 hg, by rw [h3]⟩
    rw [step, e, ← this]
  | setLS =>
    obtain ⟨s, e, h1, h2, h3, h5⟩ := setLS_spec avail g l hg'
    have : s.1 = true := by
      unfold setLS at e
      obtain ⟨a, ea, x1, x2, x3, x4, x5⟩ := setError_spec avail 1 (by omega) g l hg'
      have xa := setError_full ha (by omega) g l a ea
      have ra := x5 xa hg
      rw [ea] at e
      simp only [Res.bind, xa, Bool.not_true, Bool.false_eq_true, if_false] at e
      obtain ⟨b, eb, y1, y2, y3, y5⟩ := setCore_spec avail a.2.1.coreSize a.2.1 a.2.2
      have yb := setCore_full ha ra.1 a.2.1 a.2.2 b eb
      rw [eb] at e
      simp only [yb, Bool.not_true, Bool.false_eq_true, if_false] at e
      exact methodLoaded_full ha b.2.1 b.2.2 (y5 yb ra) s e
    refine ⟨s.2.1, s.2.2, ?_, h5 this hg, h3⟩
    rw [step, e, ← this]
  | createEM is ms =>
    obtain ⟨l', e⟩ := createEM_full ha is ms g l hg hu ho.1 ho.2
    refine ⟨g, l', ?_, hg, rfl⟩
    rw [step, e]; rfl

/-- **C228.** With enough memory every history of such calls is defined, all calls succeed, and at the end everything is released. -/
theorem zGMM_full {avail : Nat → Bool} (ha : ∀ t, avail t = true) (k n : Nat) (hk : k ≠ 0) (hn : n ≠ 0) (l : Led) (ops : List Op) (ho : ∀ o ∈ ops, Sound k o) :
    ∃ g l1 r l2, init avail k n l = .ok (true, g, l1) ∧ run avail ops g l1 = .ok r ∧ (∀ b ∈ r.1, b = true) ∧ destroy r.2.1 r.2.2 = .ok ({}, l2) ∧ l2.live = l.live := by
  obtain ⟨g, l1, e⟩ := init_full ha k hn l
  obtain ⟨h1, h2, h3⟩ := init_spec avail k n l g l1 e
  have key : ∀ (ops : List Op) (g : GMM) (l : Led), Ready g → g.units.length = k → (∀ o ∈ ops, Sound k o) → ∃ r, run avail ops g l = .ok r ∧ ∀ b ∈ r.1, b = true := by
    intro ops
    induction ops with
    | nil => intro g l _ _ _; exact ⟨_, rfl, by simp⟩
    | cons o os ih =>
      intro g l hg hl ho
      obtain ⟨g', l', es, r1, r2⟩ := step_full ha o g l hg (by intro hh; rw [hh] at hl; exact hk hl.symm) (by rw [hl]; exact ho o (by simp))
      obtain ⟨q, eq, hq⟩ := ih g' l' r1 (by rw [r2, hl]) (fun p hp => ho p (by simp [hp]))
      refine ⟨(true :: q.1, q.2), by simp only [run, es, Res.bind, eq], ?_⟩
      intro b hb
      rcases List.mem_cons.1 hb with rfl | hb
      · rfl
      · exact hq b hb
  obtain ⟨r, er, hr⟩ := key ops g l1 h2 h1 ho
  have hv : ∀ o ∈ ops, Valid k o := by
    intro o h
    have := ho o h
    cases o <;> simp_all [Sound, Valid]
  obtain ⟨l2, ed, _, hl2⟩ := zGMM_history_partial avail k n l g l1 e ops hv r er
  refine ⟨g, l1, r, l2, e, er, hr, ed, hl2 (fun p hp _ => hr p.2 (List.of_mem_zip hp).2)⟩

/-- Two units of dimension 3, made to fit the linear sum, estimated twice. -/
example : ∀ o ∈ [Op.createEM [0, 1, 0, 1] [(0, 1)], .setLS, .setLoaded, .setError 2, .setCore 3, .createEM [1, 0, 0] []], Sound 2 o := by
  simp [Sound]

/-! ## What is lost -/

/-- **C228, violated.** If the memory runs out inside a unit, initialisation fails, and what the unit had got is lost: here three blocks of the first unit, for any number of units of any size. -/
theorem zGMMInit_leak_violated (k n : Nat) (hn : n ≠ 0) (l : Led) :
    ∃ l', init (fun t => t != l.t + 2) (k+1) n l = .ok (false, {}, l') ∧ l'.live = l.live + 3 := by
  have a1 : alloc (fun t => t != l.t + 2) l = (true, ⟨l.t + 1, l.live + 1⟩) := by simp [alloc]
  have a2 : alloc (fun t => t != l.t + 2) ⟨l.t + 1, l.live + 1⟩ = (true, ⟨l.t + 2, l.live + 2⟩) := by simp [alloc]; ring
  have a3 : alloc (fun t => t != l.t + 2) ⟨l.t + 2, l.live + 2⟩ = (false, ⟨l.t + 3, l.live + 2⟩) := by simp [alloc]
  have a4 : alloc (fun t => t != l.t + 2) ⟨l.t + 3, l.live + 2⟩ = (true, ⟨l.t + 4, l.live + 3⟩) := by simp [alloc]; ring
  have a5 : alloc (fun t => t != l.t + 2) ⟨l.t + 4, l.live + 3⟩ = (true, ⟨l.t + 5, l.live + 4⟩) := by simp [alloc]; ring
  have u : ∃ u l', unitAlloc (fun t => t != l.t + 2) n {} ⟨l.t + 1, l.live + 1⟩ = (false, u, l') ∧ l'.live = l.live + 4 := by
    refine ⟨⟨some n, none, some n, some n⟩, ⟨l.t + 5, l.live + 4⟩, ?_, rfl⟩
    simp only [unitAlloc, coreAlloc, vecAlloc, if_neg hn, freeOpt, Option.isSome_none, freeIf, Bool.false_eq_true, if_false, a2, if_true, Option.isSome_some, Bool.not_true, errorAlloc, a3, a4, a5,
      Bool.false_and]
  obtain ⟨x, l', e, hl⟩ := u
  refine ⟨free l', ?_, by simp only [free]; linarith⟩
  have : initLoop (fun t => t != l.t + 2) n (k+1) [] l = (false, [], free l') := by
    simp only [initLoop, a1, Bool.not_true, Bool.false_eq_true, if_false, e, Bool.not_false, if_true]
  simp only [init, this, Bool.not_false, if_true]
  rfl

/-- **C228, violated.** If there is no memory for the matrices of an estimation, the copy of the method is lost. -/
theorem zGMMCreateEM_leak_violated :
    (match init (fun t => t != 11) 1 2 {} with
      | .ok (true, g, l) => (match run (fun t => t != 11) [.createEM [0, 0] []] g l with
        | .ok r => (match destroy r.2.1 r.2.2 with | .ok d => decide (r.1 = [false] ∧ d.2.live = 2) | _ => false)
        | _ => false)
      | _ => false) = true := by decide +kernel

/-- **C228, violated.** A size of errors that is not positive is refused after the vector has been released, and the pointer to it is kept: the model can no longer be destroyed, nor used. -/
theorem zGMMSetErrorFunc_size_violated (avail : Nat → Bool) (k n : Nat) (l : Led) (g : GMM) (l1 : Led) (hi : init avail k n l = .ok (true, g, l1)) :
    ∃ g' l', setError avail 0 g l1 = .ok (false, g', l') ∧ destroy g' l' = .ub ∧ ∀ m l'', setError avail m g' l'' = .ub := by
  obtain ⟨_, ⟨_, m, _, he, _⟩, _⟩ := init_spec avail k n l g l1 hi
  refine ⟨{ g with error := .gone }, free l1, ?_, ?_, ?_⟩
  · simp [setError, methodError, he, freePtr, Res.bind]
  · simp [destroy, freePtr, Res.bind]
  · intro m l''; simp [setError, methodError, freePtr, Res.bind]

end Zm.GMMMem
