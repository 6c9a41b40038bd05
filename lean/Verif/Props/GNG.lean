import Verif.Model.GNG
import Mathlib.Algebra.Field.Rat
import Mathlib.Algebra.Order.Ring.Rat
import Mathlib.Data.List.Nodup
import Mathlib.Tactic.Linarith

/-!
# Growing neural gas

C66: the graph of units and edges stays well-formed over any sequence of updates; C98: what an update picks.
-/

set_option linter.unusedSectionVars false

namespace Zm.GNG

variable {K V : Type*} [Field K] [LinearOrder K]

/-- Specification: an edge ends at a unit. -/
def Ends (e : Edge) (u : Nat) : Prop := e.u1 = u ∨ e.u2 = u

instance (e : Edge) (u : Nat) : Decidable (Ends e u) := by unfold Ends; infer_instance

/-- Specification (C66): the units and edges form a simple graph without isolated units, and the list of edges kept at each unit is the list of the edges that end there. -/
structure Graph (s : Net K V) : Prop where
  unitsNodup : s.units.Nodup
  edgesNodup : s.edges.Nodup
  distinct : ∀ e ∈ s.edges, (s.ed e).u1 ≠ (s.ed e).u2
  exist : ∀ e ∈ s.edges, (s.ed e).u1 ∈ s.units ∧ (s.ed e).u2 ∈ s.units
  simple : ∀ e ∈ s.edges, ∀ e' ∈ s.edges, (∀ u, Ends (s.ed e) u ↔ Ends (s.ed e') u) → e = e'
  covered : ∀ u ∈ s.units, ∃ e ∈ s.edges, Ends (s.ed e) u
  lists : ∀ u ∈ s.units, ∀ e, e ∈ s.ep u ↔ e ∈ s.edges ∧ Ends (s.ed e) u

/-- The working invariant, which holds also while a unit is being added. -/
structure Inv (s : Net K V) : Prop where
  un : s.units.Nodup
  en : s.edges.Nodup
  ne : ∀ e ∈ s.edges, (s.ed e).u1 ≠ (s.ed e).u2
  ex : ∀ e ∈ s.edges, (s.ed e).u1 ∈ s.units ∧ (s.ed e).u2 ∈ s.units
  si : ∀ e ∈ s.edges, ∀ e' ∈ s.edges, joins (s.ed e) (s.ed e').u1 (s.ed e').u2 = true → e = e'
  epn : ∀ u ∈ s.units, (s.ep u).Nodup
  ep : ∀ u ∈ s.units, ∀ e, e ∈ s.ep u ↔ e ∈ s.edges ∧ Ends (s.ed e) u
  nu : ∀ u ∈ s.units, u < s.nu
  nE : ∀ e ∈ s.edges, e < s.ne

/-- No unit is isolated. -/
def NE (s : Net K V) : Prop := ∀ u ∈ s.units, s.ep u ≠ []

theorem joins_iff (e : Edge) (a b : Nat) : joins e a b = true ↔ (e.u1 = a ∧ e.u2 = b) ∨ (e.u1 = b ∧ e.u2 = a) := by
  unfold joins; exact decide_eq_true_iff

theorem Inv.graph {s : Net K V} (h : Inv s) (hn : NE s) : Graph s where
  unitsNodup := h.un
  edgesNodup := h.en
  distinct := h.ne
  exist := h.ex
  simple := by
    intro e he e' he' hu
    refine h.si e he e' he' ((joins_iff _ _ _).2 ?_)
    have a1 := (hu (s.ed e').u1).2 (.inl rfl)
    have a2 := (hu (s.ed e').u2).2 (.inr rfl)
    have hd := h.ne e he
    have hd' := h.ne e' he'
    unfold Ends at a1 a2
    omega
  covered := by
    intro u hu
    obtain ⟨e, l, hl⟩ := List.exists_cons_of_ne_nil (hn u hu)
    exact ⟨e, (h.ep u hu e).1 (by rw [hl]; simp)⟩
  lists := h.ep

theorem Inv.two {s : Net K V} (h : Inv s) (he : s.edges ≠ []) : 2 ≤ s.units.length := by
  obtain ⟨e, l, hl⟩ := List.exists_cons_of_ne_nil he
  have hem : e ∈ s.edges := by rw [hl]; simp
  have hd := h.ne e hem
  obtain ⟨k1, k2⟩ := h.ex e hem
  by_contra hc
  have : s.units.length ≤ 1 := by omega
  match hU : s.units, this with
  | [], _ => rw [hU] at k1; simp at k1
  | [y], _ => rw [hU] at k1 k2; simp at k1 k2; exact hd (k1.trans k2.symm)

theorem upd_same {α : Type*} (f : Nat → α) (i : Nat) (a : α) : upd f i a i = a := if_pos rfl
theorem upd_ne {α : Type*} (f : Nat → α) {i j : Nat} (a : α) (h : j ≠ i) : upd f i a j = f j := if_neg h

/-- Removal of an edge keeps the invariant, and removes the units that lose their last edge. -/
theorem purgeEdge_inv (s : Net K V) (h : Inv s) (hn : NE s) (e : Nat) (he : e ∈ s.edges) :
    ∃ s', purgeEdge s e = .ok s' ∧ Inv s' ∧ NE s' ∧ s'.edges = s.edges.erase e ∧ s'.ed = s.ed ∧
      (∀ u, u ∈ s'.units → u ∈ s.units) := by
  obtain ⟨hu1, hu2⟩ := h.ex e he
  have hne := h.ne e he
  set a := (s.ed e).u1 with ha
  set b := (s.ed e).u2 with hb
  -- the units after the two halves
  let U := s.units.filter fun u => decide (¬ ((u = a ∨ u = b) ∧ (s.ep u).erase e = []))
  let E : Nat → List Nat := fun u => if u = a ∨ u = b then (s.ep u).erase e else s.ep u
  have key : ∃ s', purgeEdge s e = .ok s' ∧ s'.units = U ∧ s'.ep = E ∧ s'.edges = s.edges.erase e ∧ s'.ed = s.ed ∧ s'.nu = s.nu ∧ s'.ne = s.ne := by
    have hb1 : b ∈ (purgeEnd s e a).units := by
      unfold purgeEnd
      split_ifs
      · exact (h.un.mem_erase_iff).2 ⟨fun hc => hne hc.symm, hu2⟩
      · exact hu2
    have hepb : (purgeEnd s e a).ep b = s.ep b := by
      unfold purgeEnd
      split_ifs <;> exact upd_ne _ _ (fun hc => hne hc.symm)
    unfold purgeEdge
    rw [if_pos ⟨he, hu1⟩]
    dsimp only
    rw [if_pos hb1]
    refine ⟨_, rfl, ?_, ?_, ?_, ?_, ?_, ?_⟩
    · dsimp only
      have e1 : (purgeEnd s e a).units = s.units.filter fun u => decide (¬ (u = a ∧ (s.ep u).erase e = [])) := by
        unfold purgeEnd
        split_ifs with hc
        · dsimp only
          rw [h.un.erase_eq_filter]
          refine List.filter_congr fun u _ => ?_
          by_cases hua : u = a
          · subst hua; simp [hc]
          · simp [hua]
        · symm
          rw [List.filter_eq_self]
          intro u _
          by_cases hua : u = a
          · subst hua; simp [hc]
          · simp [hua]
      have e2 : (purgeEnd (purgeEnd s e a) e b).units = (purgeEnd s e a).units.filter fun u => decide (¬ (u = b ∧ (s.ep u).erase e = [])) := by
        rw [purgeEnd, hepb]
        split_ifs with hc
        · dsimp only
          rw [(show (purgeEnd s e a).units.Nodup by rw [e1]; exact h.un.filter _).erase_eq_filter]
          refine List.filter_congr fun u _ => ?_
          by_cases hua : u = b
          · subst hua; simp [hc]
          · simp [hua]
        · symm
          rw [List.filter_eq_self]
          intro u _
          by_cases hua : u = b
          · subst hua; simp [hc]
          · simp [hua]
      rw [e2, e1, List.filter_filter]
      refine List.filter_congr fun u _ => ?_
      rw [← Bool.decide_and]
      refine decide_eq_decide.2 ?_
      tauto
    · dsimp only
      funext u
      show _ = if u = a ∨ u = b then (s.ep u).erase e else s.ep u
      have e1 : ∀ u, (purgeEnd s e a).ep u = if u = a then (s.ep u).erase e else s.ep u := by
        intro u
        unfold purgeEnd
        split_ifs with hc hua hua
        · subst hua; rw [hc]; exact upd_same _ _ _
        · exact upd_ne _ _ hua
        · subst hua; exact upd_same _ _ _
        · exact upd_ne _ _ hua
      have e2 : (purgeEnd (purgeEnd s e a) e b).ep u = if u = b then (s.ep b).erase e else (purgeEnd s e a).ep u := by
        rw [purgeEnd, hepb]
        split_ifs with hc hua hua
        · subst hua; rw [hc]; exact upd_same _ _ _
        · exact upd_ne _ _ hua
        · subst hua; exact upd_same _ _ _
        · exact upd_ne _ _ hua
      rw [e2, e1]
      by_cases h1 : u = b
      · rw [if_pos h1, if_pos (.inr h1), h1]
      · by_cases h2 : u = a
        · rw [if_neg h1, if_pos h2, if_pos (.inl h2)]
        · rw [if_neg h1, if_neg h2, if_neg (by tauto)]
    all_goals
      dsimp only
      unfold purgeEnd
      split_ifs <;> rfl
  obtain ⟨s', e0, eU, eE, eS, eD, eN, eM⟩ := key
  have memU : ∀ u, u ∈ s'.units ↔ u ∈ s.units ∧ ¬ ((u = a ∨ u = b) ∧ (s.ep u).erase e = []) := by
    intro u; rw [eU, List.mem_filter]; simp only [decide_eq_true_eq]
  have memS : ∀ x, x ∈ s'.edges ↔ x ≠ e ∧ x ∈ s.edges := by
    intro x; rw [eS]; exact h.en.mem_erase_iff
  have stay : ∀ x ∈ s.edges, x ≠ e → ∀ u, Ends (s.ed x) u → u ∈ s.units → u ∈ s'.units := by
    intro x hx hxe u hu huu
    rw [memU]
    refine ⟨huu, fun hc => ?_⟩
    have : x ∈ (s.ep u).erase e := ((h.epn u huu).mem_erase_iff).2 ⟨hxe, (h.ep u huu x).2 ⟨hx, hu⟩⟩
    rw [hc.2] at this
    simp at this
  have ends : ∀ u, Ends (s.ed e) u ↔ (u = a ∨ u = b) := by
    intro u; unfold Ends; rw [← ha, ← hb]; constructor <;> rintro (h | h) <;> simp [h]
  refine ⟨s', e0, ⟨?_, ?_, ?_, ?_, ?_, ?_, ?_, ?_, ?_⟩, ?_, eS, eD, fun u hu => ((memU u).1 hu).1⟩
  · rw [eU]; exact h.un.filter _
  · rw [eS]; exact h.en.erase _
  · intro x hx; rw [eD]; exact h.ne x ((memS x).1 hx).2
  · intro x hx
    rw [eD]
    obtain ⟨h1, h2⟩ := (memS x).1 hx
    exact ⟨stay x h2 h1 _ (.inl rfl) (h.ex x h2).1, stay x h2 h1 _ (.inr rfl) (h.ex x h2).2⟩
  · intro x hx y hy hj
    rw [eD] at hj
    exact h.si x ((memS x).1 hx).2 y ((memS y).1 hy).2 hj
  · intro u hu
    rw [eE]
    show (if u = a ∨ u = b then (s.ep u).erase e else s.ep u).Nodup
    have := h.epn u ((memU u).1 hu).1
    split_ifs
    · exact this.erase _
    · exact this
  · intro u hu x
    have huu := ((memU u).1 hu).1
    rw [eE, eD, memS]
    show x ∈ (if u = a ∨ u = b then (s.ep u).erase e else s.ep u) ↔ _
    split_ifs with hc
    · rw [(h.epn u huu).mem_erase_iff, h.ep u huu]; tauto
    · rw [h.ep u huu]
      constructor
      · rintro ⟨h1, h2⟩
        exact ⟨⟨fun hxe => hc ((ends u).1 (hxe ▸ h2)), h1⟩, h2⟩
      · rintro ⟨⟨_, h1⟩, h2⟩; exact ⟨h1, h2⟩
  · intro u hu; rw [eN]; exact h.nu u ((memU u).1 hu).1
  · intro x hx; rw [eM]; exact h.nE x ((memS x).1 hx).2
  · intro u hu
    rw [eE]
    show (if u = a ∨ u = b then (s.ep u).erase e else s.ep u) ≠ []
    obtain ⟨h1, h2⟩ := (memU u).1 hu
    split_ifs with hc
    · exact fun h0 => h2 ⟨hc, h0⟩
    · exact hn u h1

theorem purgeEnd_v (s : Net K V) (e u : Nat) : (purgeEnd s e u).v = s.v := by
  unfold purgeEnd; split_ifs <;> rfl

theorem purgeEdge_v (s : Net K V) (e : Nat) (s' : Net K V) (h : purgeEdge s e = .ok s') : s'.v = s.v := by
  unfold purgeEdge at h
  dsimp only at h
  split_ifs at h
  simp only [Res.ok.injEq] at h
  rw [← h]
  dsimp only
  rw [purgeEnd_v, purgeEnd_v]

/-- The state after `connect`. -/
theorem connect_inv (s : Net K V) (h : Inv s) (a b : Nat) (hab : a ≠ b) (ha : a ∈ s.units) (hb : b ∈ s.units)
    (hj : ∀ e ∈ s.edges, joins (s.ed e) a b = false) :
    ∃ s', connect s a b = .ok s' ∧ Inv s' ∧ s'.units = s.units ∧ s'.edges = s.edges ++ [s.ne] ∧ (∀ e ∈ s.edges, s'.ed e = s.ed e) ∧
      s'.ed s.ne = ⟨0, a, b⟩ ∧ (∀ u, s'.ep u ≠ [] ∨ (u ≠ a ∧ u ≠ b ∧ s'.ep u = s.ep u)) ∧ s'.v = s.v ∧ s'.err = s.err ∧ s'.nu = s.nu := by
  unfold connect
  rw [if_pos ⟨ha, hb⟩]
  have hnew : ∀ e ∈ s.edges, e ≠ s.ne := fun e he => (h.nE e he).ne
  have hfresh : s.ne ∉ s.edges := fun hc => hnew _ hc rfl
  have epE : ∀ u, upd (upd s.ep a (s.ep a ++ [s.ne])) b (upd s.ep a (s.ep a ++ [s.ne]) b ++ [s.ne]) u = if u = a ∨ u = b then s.ep u ++ [s.ne] else s.ep u := by
    intro u
    by_cases h1 : u = b
    · subst h1; rw [upd_same, upd_ne _ _ (Ne.symm hab), if_pos (.inr rfl)]
    · rw [upd_ne _ _ h1]
      by_cases h2 : u = a
      · subst h2; rw [upd_same, if_pos (.inl rfl)]
      · rw [upd_ne _ _ h2, if_neg (by tauto)]
  have edE : ∀ e ∈ s.edges, upd s.ed s.ne ⟨0, a, b⟩ e = s.ed e := fun e he => upd_ne _ _ (hnew e he)
  have edN : upd s.ed s.ne (⟨0, a, b⟩ : Edge) s.ne = ⟨0, a, b⟩ := upd_same _ _ _
  have mem : ∀ e, e ∈ s.edges ++ [s.ne] ↔ e ∈ s.edges ∨ e = s.ne := by intro e; simp
  refine ⟨_, rfl, ⟨h.un, ?_, ?_, ?_, ?_, ?_, ?_, h.nu, ?_⟩, rfl, rfl, edE, edN, ?_, rfl, rfl, rfl⟩
  · dsimp only
    rw [List.nodup_append]
    exact ⟨h.en, by simp, by intro x hx y hy; rw [List.mem_singleton.1 hy]; exact hnew x hx⟩
  · intro e he
    dsimp only at he ⊢
    rcases (mem e).1 he with he | he
    · rw [edE e he]; exact h.ne e he
    · rw [he, edN]; exact hab
  · intro e he
    dsimp only at he ⊢
    rcases (mem e).1 he with he | he
    · rw [edE e he]; exact h.ex e he
    · rw [he, edN]; exact ⟨ha, hb⟩
  · intro e he e' he' hjj
    dsimp only at he he' hjj
    rcases (mem e).1 he with he | he <;> rcases (mem e').1 he' with he' | he'
    · rw [edE e he, edE e' he'] at hjj; exact h.si e he e' he' hjj
    · rw [he', edN, edE e he] at hjj
      rw [hj e he] at hjj; simp at hjj
    · rw [he, edN, edE e' he'] at hjj
      have hf := hj e' he'
      rw [joins_iff] at hjj
      have : joins (s.ed e') a b = true := by rw [joins_iff]; dsimp only at hjj; omega
      rw [hf] at this; simp at this
    · rw [he, he']
  · intro u hu
    dsimp only
    rw [epE]
    have := h.epn u hu
    split_ifs
    · rw [List.nodup_append]
      refine ⟨this, by simp, ?_⟩
      intro x hx y hy
      rw [List.mem_singleton.1 hy]
      exact hnew x ((h.ep u hu x).1 hx).1
    · exact this
  · intro u hu x
    dsimp only
    rw [epE, mem]
    by_cases hx : x = s.ne
    · subst hx
      rw [edN]
      have : s.ne ∉ s.ep u := fun hc => hfresh ((h.ep u hu _).1 hc).1
      unfold Ends
      dsimp only
      split_ifs with hc
      · simp; tauto
      · constructor
        · intro hh; exact absurd hh this
        · rintro ⟨_, h1⟩; exact absurd (by tauto) hc
    · rw [upd_ne _ _ hx]
      have h0 := h.ep u hu x
      split_ifs
      · simp only [List.mem_append, List.mem_singleton, hx, or_false]; exact h0
      · simp only [hx, or_false]; exact h0
  · intro e he
    dsimp only at he ⊢
    rcases (mem e).1 he with he | he
    · have := h.nE e he; omega
    · omega
  · intro u
    dsimp only
    rw [epE]
    by_cases hc : u = a ∨ u = b
    · left; rw [if_pos hc]; simp
    · right; rw [if_neg hc]; tauto

theorem addUnit_inv (s : Net K V) (h : Inv s) (v : V) (err : K) : Inv (addUnit s v err) := by
  have hnew : ∀ u ∈ s.units, u ≠ s.nu := fun u hu => (h.nu u hu).ne
  have mem : ∀ u, u ∈ (addUnit s v err).units ↔ u ∈ s.units ∨ u = s.nu := by intro u; simp [addUnit]
  refine ⟨?_, h.en, h.ne, ?_, h.si, ?_, ?_, ?_, h.nE⟩
  · show (s.units ++ [s.nu]).Nodup
    rw [List.nodup_append]
    exact ⟨h.un, by simp, by intro x hx y hy; rw [List.mem_singleton.1 hy]; exact hnew x hx⟩
  · intro e he
    exact ⟨(mem _).2 (.inl (h.ex e he).1), (mem _).2 (.inl (h.ex e he).2)⟩
  · intro u hu
    show (upd s.ep s.nu [] u).Nodup
    rcases (mem u).1 hu with hu | hu
    · rw [upd_ne _ _ (hnew u hu)]; exact h.epn u hu
    · rw [hu, upd_same]; exact List.nodup_nil
  · intro u hu x
    show x ∈ upd s.ep s.nu [] u ↔ x ∈ s.edges ∧ Ends (s.ed x) u
    rcases (mem u).1 hu with hu | hu
    · rw [upd_ne _ _ (hnew u hu)]; exact h.ep u hu x
    · rw [hu, upd_same]
      constructor
      · intro hx; simp at hx
      · rintro ⟨hx, h1⟩
        obtain ⟨h2, h3⟩ := h.ex x hx
        rcases h1 with h1 | h1
        · exact absurd h1 (hnew _ h2)
        · exact absurd h1 (hnew _ h3)
  · intro u hu
    show u < s.nu + 1
    rcases (mem u).1 hu with hu | hu
    · have := h.nu u hu; omega
    · omega

/-- Vectors, errors and ages do not matter for the invariant. -/
theorem Inv.congr {s s' : Net K V} (h : Inv s) (hU : s'.units = s.units) (hE : s'.ep = s.ep) (hS : s'.edges = s.edges) (h1 : ∀ e, (s'.ed e).u1 = (s.ed e).u1)
    (h2 : ∀ e, (s'.ed e).u2 = (s.ed e).u2) (hn : s'.nu = s.nu) (hm : s'.ne = s.ne) : Inv s' := by
  refine ⟨by rw [hU]; exact h.un, by rw [hS]; exact h.en, ?_, ?_, ?_, ?_, ?_, ?_, ?_⟩
  · intro e he; rw [h1, h2]; rw [hS] at he; exact h.ne e he
  · intro e he; rw [h1, h2, hU]; rw [hS] at he; exact h.ex e he
  · intro e he e' he' hj
    rw [hS] at he he'
    refine h.si e he e' he' ?_
    rw [joins_iff] at hj ⊢
    rw [h1, h1, h2, h2] at hj; exact hj
  · intro u hu; rw [hU] at hu; rw [hE]; exact h.epn u hu
  · intro u hu x; rw [hU] at hu; rw [hE, hS]; unfold Ends; rw [h1, h2]; exact h.ep u hu x
  · intro u hu; rw [hU] at hu; rw [hn]; exact h.nu u hu
  · intro e he; rw [hS] at he; rw [hm]; exact h.nE e he

theorem other_spec {e : Edge} {u : Nat} (hn : e.u1 ≠ e.u2) (h : Ends e u) : other u e ≠ u ∧ Ends e (other u e) ∧ joins e u (other u e) = true := by
  unfold other Ends at *
  rw [joins_iff]
  split_ifs with h1
  · exact ⟨fun hc => hn (h1.trans hc.symm), .inr rfl, .inl ⟨h1, rfl⟩⟩
  · have h2 : e.u2 = u := h.resolve_left h1
    exact ⟨h1, .inl rfl, .inr ⟨rfl, h2⟩⟩

theorem other_of_joins {e : Edge} {a b : Nat} (hab : a ≠ b) (h : joins e a b = true) : Ends e a ∧ other a e = b := by
  rw [joins_iff] at h
  unfold Ends other
  rcases h with ⟨h1, h2⟩ | ⟨h1, h2⟩
  · exact ⟨.inl h1, by rw [if_pos h1, h2]⟩
  · exact ⟨.inr h2, by rw [if_neg (by rw [h1]; exact fun h => hab h.symm), h1]⟩

/-- C98: with at least two units the search finds two different ones: the nearest and the nearest of the others. -/
theorem findProximity2_spec (d : Nat → K) (l : List Nat) (hn : l.Nodup) (hl : 2 ≤ l.length) :
    ∃ u1 u2, findProximity2 d l = .ok (u1, u2) ∧ u1 ∈ l ∧ u2 ∈ l ∧ u1 ≠ u2 ∧ (∀ u ∈ l, d u1 ≤ d u) ∧ ∀ u ∈ l, u ≠ u1 → d u2 ≤ d u := by
  have gen : ∀ (l done : List Nat) (p : Prox K), (done ++ l).Nodup → p.u1 ∈ done → p.u2 ∈ done → p.u1 ≠ p.u2 → p.d1 = some (d p.u1) → p.d2 = some (d p.u2) →
      (∀ u ∈ done, d p.u1 ≤ d u) → (∀ u ∈ done, u ≠ p.u1 → d p.u2 ≤ d u) →
      ∃ q, l.foldl (proxStep d) p = q ∧ q.u1 ∈ done ++ l ∧ q.u2 ∈ done ++ l ∧ q.u1 ≠ q.u2 ∧ (∀ u ∈ done ++ l, d q.u1 ≤ d u) ∧ ∀ u ∈ done ++ l, u ≠ q.u1 → d q.u2 ≤ d u := by
    intro l
    induction l with
    | nil => intro done p _ a b c _ _ e f; exact ⟨p, rfl, by simpa using a, by simpa using b, c, by simpa using e, by simpa using f⟩
    | cons x l ih =>
      intro done p hnd a b c e1 e2 f g
      have hx : x ∉ done := by
        intro hx
        rw [List.nodup_append] at hnd
        exact hnd.2.2 x hx x (by simp) rfl
      have hnd' : ((done ++ [x]) ++ l).Nodup := by simpa using hnd
      have memd : ∀ u, u ∈ done ++ [x] ↔ u ∈ done ∨ u = x := by intro u; simp
      rw [List.foldl_cons]
      have hres : ∀ q : Prox K, q.u1 ∈ done ++ [x] → q.u2 ∈ done ++ [x] → q.u1 ≠ q.u2 → q.d1 = some (d q.u1) → q.d2 = some (d q.u2) →
          (∀ u ∈ done ++ [x], d q.u1 ≤ d u) → (∀ u ∈ done ++ [x], u ≠ q.u1 → d q.u2 ≤ d u) → proxStep d p x = q →
          ∃ q, l.foldl (proxStep d) (proxStep d p x) = q ∧ q.u1 ∈ done ++ x :: l ∧ q.u2 ∈ done ++ x :: l ∧ q.u1 ≠ q.u2 ∧ (∀ u ∈ done ++ x :: l, d q.u1 ≤ d u) ∧
            ∀ u ∈ done ++ x :: l, u ≠ q.u1 → d q.u2 ≤ d u := by
        intro q q1 q2 q3 q4 q5 q6 q7 hq
        have := ih (done ++ [x]) q hnd' q1 q2 q3 q4 q5 q6 q7
        rw [hq]
        simpa only [List.append_assoc, List.singleton_append] using this
      by_cases h1 : d x < d p.u1
      · refine hres ⟨x, some (d x), p.u1, p.d1⟩ ((memd _).2 (.inr rfl)) ((memd _).2 (.inl a)) (fun h => hx (by dsimp only at h; rw [h]; exact a)) rfl e1 ?_ ?_ ?_
        · intro u hu
          rcases (memd u).1 hu with hu | hu
          · exact h1.le.trans (f u hu)
          · rw [hu]
        · intro u hu hux
          rcases (memd u).1 hu with hu | hu
          · exact f u hu
          · exact absurd hu hux
        · unfold proxStep; rw [if_pos (by rw [e1]; exact h1)]
      · by_cases h2 : d x < d p.u2
        · refine hres ⟨p.u1, p.d1, x, some (d x)⟩ ((memd _).2 (.inl a)) ((memd _).2 (.inr rfl)) (fun h => hx (by dsimp only at h; rw [← h]; exact a)) e1 rfl ?_ ?_ ?_
          · intro u hu
            rcases (memd u).1 hu with hu | hu
            · exact f u hu
            · rw [hu]; exact not_lt.1 h1
          · intro u hu hux
            rcases (memd u).1 hu with hu | hu
            · exact h2.le.trans (g u hu hux)
            · rw [hu]
          · unfold proxStep; rw [if_neg (by rw [e1]; exact h1), if_pos (by rw [e2]; exact h2)]
        · refine hres p ((memd _).2 (.inl a)) ((memd _).2 (.inl b)) c e1 e2 ?_ ?_ ?_
          · intro u hu
            rcases (memd u).1 hu with hu | hu
            · exact f u hu
            · rw [hu]; exact not_lt.1 h1
          · intro u hu hux
            rcases (memd u).1 hu with hu | hu
            · exact g u hu hux
            · rw [hu]; exact not_lt.1 h2
          · unfold proxStep; rw [if_neg (by rw [e1]; exact h1), if_neg (by rw [e2]; exact h2)]
  match l, hn, hl with
  | x :: y :: l, hn, _ =>
    have hxy : x ≠ y := fun h => by rw [List.nodup_cons] at hn; exact hn.1 (by rw [h]; simp)
    have hnd : ([x, y] ++ l).Nodup := by simpa using hn
    unfold findProximity2
    dsimp only
    have e0 : proxStep d (⟨x, none, x, none⟩ : Prox K) x = ⟨x, some (d x), x, none⟩ := if_pos trivial
    rw [List.foldl_cons, List.foldl_cons, e0]
    by_cases h1 : d y < d x
    · have e1 : proxStep d (⟨x, some (d x), x, none⟩ : Prox K) y = ⟨y, some (d y), x, some (d x)⟩ := if_pos h1
      rw [e1]
      obtain ⟨q, hq, r⟩ := gen l [x, y] ⟨y, some (d y), x, some (d x)⟩ hnd (by simp) (by simp) (Ne.symm hxy) rfl rfl
        (by intro u hu; simp only [List.mem_cons, List.not_mem_nil, or_false] at hu; rcases hu with rfl | rfl; exact h1.le; exact le_refl _)
        (by intro u hu hne; simp only [List.mem_cons, List.not_mem_nil, or_false] at hu; rcases hu with rfl | rfl; exact le_refl _; exact absurd rfl hne)
      exact ⟨q.u1, q.u2, by rw [hq], r⟩
    · have e1 : proxStep d (⟨x, some (d x), x, none⟩ : Prox K) y = ⟨x, some (d x), y, some (d y)⟩ := (if_neg h1).trans (if_pos trivial)
      rw [e1]
      obtain ⟨q, hq, r⟩ := gen l [x, y] ⟨x, some (d x), y, some (d y)⟩ hnd (by simp) (by simp) hxy rfl rfl
        (by intro u hu; simp only [List.mem_cons, List.not_mem_nil, or_false] at hu; rcases hu with rfl | rfl; exact le_refl _; exact not_lt.1 h1)
        (by intro u hu hne; simp only [List.mem_cons, List.not_mem_nil, or_false] at hu; rcases hu with rfl | rfl; exact absurd rfl hne; exact le_refl _)
      exact ⟨q.u1, q.u2, by rw [hq], r⟩

/-- C98: the pivot has the largest error. -/
theorem findPivot_spec (f : Nat → K) (l : List Nat) (hl : l ≠ []) : ∃ u, findPivot f l = .ok u ∧ u ∈ l ∧ ∀ x ∈ l, f x ≤ f u := by
  have gen : ∀ (l : List Nat) (p : Nat), (l.foldl (maxStep f) p ∈ p :: l) ∧ ∀ x ∈ p :: l, f x ≤ f (l.foldl (maxStep f) p) := by
    intro l
    induction l with
    | nil => intro p; simp
    | cons x l ih =>
      intro p
      rw [List.foldl_cons]
      obtain ⟨a, b⟩ := ih (maxStep f p x)
      have hm : maxStep f p x = x ∧ f p ≤ f x ∨ maxStep f p x = p ∧ f x ≤ f p := by
        unfold maxStep
        split_ifs with h
        · exact .inl ⟨rfl, h⟩
        · exact .inr ⟨rfl, (not_le.1 h).le⟩
      have b0 := b _ (List.mem_cons_self)
      refine ⟨?_, ?_⟩
      · rcases List.mem_cons.1 a with a | a
        · rcases hm with ⟨h, _⟩ | ⟨h, _⟩ <;> rw [a, h] <;> simp
        · simp [a]
      · intro y hy
        rcases List.mem_cons.1 hy with rfl | hy
        · rcases hm with ⟨h, h'⟩ | ⟨h, _⟩
          · rw [h] at b0 ⊢; exact h'.trans b0
          · rw [h] at b0 ⊢; exact b0
        · rcases List.mem_cons.1 hy with rfl | hy
          · rcases hm with ⟨h, _⟩ | ⟨h, h'⟩
            · rw [h] at b0 ⊢; exact b0
            · rw [h] at b0 ⊢; exact h'.trans b0
          · exact b y (List.mem_cons_of_mem _ hy)
  match l, hl with
  | t :: l, _ =>
    obtain ⟨a, b⟩ := gen (t :: l) t
    exact ⟨_, rfl, by simpa using a, fun x hx => b x (List.mem_cons_of_mem _ hx)⟩

/-- C98: the seed is the neighbour of the pivot with the largest error. -/
theorem findSeed_spec (s : Net K V) (h : Inv s) (hn : NE s) (p : Nat) (hp : p ∈ s.units) :
    ∃ u, findSeed s p = .ok u ∧ u ∈ s.units ∧ u ≠ p ∧ (∃ e ∈ s.edges, joins (s.ed e) p u = true) ∧
      ∀ x, (∃ e ∈ s.edges, joins (s.ed e) p x = true) → s.err x ≤ s.err u := by
  have hall : ∀ e ∈ s.ep p, e ∈ s.edges ∧ Ends (s.ed e) p := fun e he => (h.ep p hp e).1 he
  have hoth : ∀ e ∈ s.ep p, other p (s.ed e) ∈ s.units := by
    intro e he
    obtain ⟨h1, h2⟩ := hall e he
    obtain ⟨_, h3, _⟩ := other_spec (h.ne e h1) h2
    rcases h3 with h3 | h3
    · rw [← h3]; exact (h.ex e h1).1
    · rw [← h3]; exact (h.ex e h1).2
  unfold findSeed
  rw [if_pos (fun e he => ⟨(hall e he).1, hoth e he⟩)]
  obtain ⟨u, e0, hu, hmax⟩ := findPivot_spec s.err ((s.ep p).map fun e => other p (s.ed e)) (by simpa using hn p hp)
  obtain ⟨e, he, heu⟩ := List.mem_map.1 hu
  obtain ⟨h1, h2⟩ := hall e he
  obtain ⟨a, b, c⟩ := other_spec (h.ne e h1) h2
  refine ⟨u, e0, by rw [← heu]; exact hoth e he, by rw [← heu]; exact a, ⟨e, h1, by rw [← heu]; exact c⟩, ?_⟩
  rintro x ⟨e', he', hj⟩
  have hpx : p ≠ x := by
    intro hc
    have := h.ne e' he'
    rw [joins_iff] at hj
    omega
  obtain ⟨k1, k2⟩ := other_of_joins hpx hj
  exact hmax x (List.mem_map.2 ⟨e', (h.ep p hp e').2 ⟨he', k1⟩, k2⟩)

/-- The loop over the neighbours of the closest unit. -/
theorem adaptLoop_spec (p : Par K V) (x : V) (a b : Nat) (l : List Nat) (s : Net K V) (h : Inv s) (fl : Bool) (hn : l.Nodup)
    (hl : ∀ e ∈ l, e ∈ s.edges ∧ Ends (s.ed e) a) :
    ∃ s' fl', adaptLoop p x a b l s fl = .ok (s', fl') ∧ Inv s' ∧ s'.units = s.units ∧ s'.ep = s.ep ∧ s'.edges = s.edges ∧ s'.nu = s.nu ∧ s'.ne = s.ne ∧
      (∀ e, (s'.ed e).u1 = (s.ed e).u1 ∧ (s'.ed e).u2 = (s.ed e).u2) ∧
      (fl' = true ↔ fl = true ∨ ∃ e ∈ l, other a (s.ed e) = b) ∧
      (∀ e, (s'.ed e).age = if e ∈ l then (if other a (s.ed e) = b then 0 else (s.ed e).age + 1) else (s.ed e).age) ∧ s'.err = s.err := by
  induction l generalizing s fl with
  | nil => exact ⟨s, fl, rfl, h, rfl, rfl, rfl, rfl, rfl, fun e => ⟨rfl, rfl⟩, by simp, fun e => by simp, rfl⟩
  | cons e l ih =>
    obtain ⟨h1, h2⟩ := hl e (by simp)
    obtain ⟨_, h3, _⟩ := other_spec (h.ne e h1) h2
    have hu : other a (s.ed e) ∈ s.units := by
      rcases h3 with h3 | h3
      · rw [← h3]; exact (h.ex e h1).1
      · rw [← h3]; exact (h.ex e h1).2
    have hed : ∀ y, ((adaptStep p x a b s e).ed y).u1 = (s.ed y).u1 ∧ ((adaptStep p x a b s e).ed y).u2 = (s.ed y).u2 := by
      intro y
      show (upd s.ed e _ y).u1 = _ ∧ (upd s.ed e _ y).u2 = _
      by_cases hy : y = e
      · subst hy; rw [upd_same]; exact ⟨rfl, rfl⟩
      · rw [upd_ne _ _ hy]; exact ⟨rfl, rfl⟩
    have hoth : ∀ y, other a ((adaptStep p x a b s e).ed y) = other a (s.ed y) := by
      intro y; unfold other; rw [(hed y).1, (hed y).2]
    have hI : Inv (adaptStep p x a b s e) := h.congr rfl rfl rfl (fun y => (hed y).1) (fun y => (hed y).2) rfl rfl
    rw [List.nodup_cons] at hn
    unfold adaptLoop
    rw [if_pos ⟨h1, hu⟩]
    obtain ⟨s', fl', e0, i1, i2, i3, i4, i5, i6, i7, i8, i9, i10⟩ := ih (adaptStep p x a b s e) hI (if other a (s.ed e) = b then true else fl) hn.2
      (by intro y hy; obtain ⟨k1, k2⟩ := hl y (by simp [hy]); exact ⟨k1, by unfold Ends; rw [(hed y).1, (hed y).2]; exact k2⟩)
    refine ⟨s', fl', e0, i1, i2, i3, i4, i5, i6, ?_, ?_, ?_, i10⟩
    · intro y; rw [(i7 y).1, (i7 y).2]; exact hed y
    · rw [i8]
      simp only [hoth, List.mem_cons, exists_eq_or_imp]
      by_cases hc : other a (s.ed e) = b <;> simp [hc]
    · intro y
      rw [i9, hoth]
      by_cases hy : y = e
      · subst hy
        rw [if_neg hn.1, if_pos (by simp)]
        show (upd s.ed y _ y).age = _
        rw [upd_same]
      · have : ((adaptStep p x a b s e).ed y).age = (s.ed y).age := by show (upd s.ed e _ y).age = _; rw [upd_ne _ _ hy]
        rw [this]
        simp [hy]

/-- Adaptation keeps the graph, and the two nearest units are joined by an edge of age zero afterwards; the other edges of the nearest unit grow older by one. -/
theorem adapt_spec (p : Par K V) (x : V) (s : Net K V) (h : Inv s) (hn : NE s) (he : s.edges ≠ []) :
    ∃ s' a b, adapt p x s = .ok s' ∧ Inv s' ∧ NE s' ∧ s'.units = s.units ∧
      a ∈ s.units ∧ b ∈ s.units ∧ a ≠ b ∧ (∀ u ∈ s.units, p.sqrDist x (s.v a) ≤ p.sqrDist x (s.v u)) ∧
      (∀ u ∈ s.units, u ≠ a → p.sqrDist x (s.v b) ≤ p.sqrDist x (s.v u)) ∧
      (∃ e ∈ s'.edges, joins (s'.ed e) a b = true ∧ (s'.ed e).age = 0) ∧
      (∀ e ∈ s.edges, e ∈ s'.edges ∧ (joins (s.ed e) a b = false → (s'.ed e).age = if Ends (s.ed e) a then (s.ed e).age + 1 else (s.ed e).age)) := by
  have hlen := h.two he
  obtain ⟨a, b, e0, ha, hb, hab, hA, hB⟩ := findProximity2_spec (fun u => p.sqrDist x (s.v u)) s.units h.un hlen
  unfold adapt
  rw [e0]
  dsimp only
  have hI : Inv (adaptClosest p x s a) := h.congr rfl rfl rfl (fun _ => rfl) (fun _ => rfl) rfl rfl
  have hmem : ∀ e, e ∈ s.ep a ↔ e ∈ s.edges ∧ Ends (s.ed e) a := h.ep a ha
  obtain ⟨s1, fl, e1, i1, i2, i3, i4, i5, i6, i7, i8, i9, i10⟩ := adaptLoop_spec p x a b (s.ep a) (adaptClosest p x s a) hI false (h.epn a ha) (fun e he => (hmem e).1 he)
  change s1.units = s.units at i2
  change s1.ep = s.ep at i3
  change s1.edges = s.edges at i4
  have i7' : ∀ e, (s1.ed e).u1 = (s.ed e).u1 ∧ (s1.ed e).u2 = (s.ed e).u2 := i7
  have i9' : ∀ e, (s1.ed e).age = if e ∈ s.ep a then (if other a (s.ed e) = b then 0 else (s.ed e).age + 1) else (s.ed e).age := i9
  have hj1 : ∀ e, joins (s1.ed e) a b = joins (s.ed e) a b := by intro e; unfold joins; rw [(i7' e).1, (i7' e).2]
  have ages : ∀ e ∈ s.edges, joins (s.ed e) a b = false → (s1.ed e).age = if Ends (s.ed e) a then (s.ed e).age + 1 else (s.ed e).age := by
    intro e hee hj
    rw [i9']
    by_cases hc : Ends (s.ed e) a
    · rw [if_pos ((hmem e).2 ⟨hee, hc⟩), if_pos hc, if_neg]
      intro ho
      have := (other_spec (h.ne e hee) hc).2.2
      rw [ho, hj] at this; simp at this
    · rw [if_neg (fun hm => hc ((hmem e).1 hm).2), if_neg hc]
  rw [e1]
  cases fl with
  | true =>
    obtain ⟨e, hee, ho⟩ := (i8.1 rfl).resolve_left (by simp)
    change other a (s.ed e) = b at ho
    obtain ⟨k1, k2⟩ := (hmem e).1 hee
    refine ⟨s1, a, b, rfl, i1, ?_, i2, ha, hb, hab, hA, hB, ⟨e, by rw [i4]; exact k1, ?_, ?_⟩, ?_⟩
    · intro u hu; rw [i3]; rw [i2] at hu; exact hn u hu
    · rw [hj1, ← ho]; exact (other_spec (h.ne e k1) k2).2.2
    · rw [i9', if_pos hee, if_pos ho]
    · intro e' he'; exact ⟨by rw [i4]; exact he', ages e' he'⟩
  | false =>
    have hno : ∀ e ∈ s1.edges, joins (s1.ed e) a b = false := by
      intro e hee
      rw [i4] at hee
      rw [hj1]
      by_contra hc
      obtain ⟨k1, k2⟩ := other_of_joins hab (by simpa using hc)
      have := i8.2 (.inr ⟨e, (hmem e).2 ⟨hee, k1⟩, k2⟩)
      simp at this
    obtain ⟨s2, e2, c1, c2, c3, c4, c5, c6, c7, c8, c9⟩ := connect_inv s1 i1 a b hab (by rw [i2]; exact ha) (by rw [i2]; exact hb) hno
    refine ⟨s2, a, b, e2, c1, ?_, c2.trans i2, ha, hb, hab, hA, hB, ⟨s1.ne, by rw [c3]; simp, by rw [c5, joins_iff]; exact .inl ⟨rfl, rfl⟩, by rw [c5]⟩, ?_⟩
    · intro u hu
      rcases c6 u with hh | ⟨_, _, hh⟩
      · exact hh
      · rw [hh, i3]; rw [c2, i2] at hu; exact hn u hu
    · intro e hee
      have hee1 : e ∈ s1.edges := by rw [i4]; exact hee
      exact ⟨by rw [c3]; simp [hee1], fun hj => by rw [c4 e hee1]; exact ages e hee hj⟩

/-- Removal of the aged edges: exactly those not above the lifetime stay. -/
theorem removeAged_spec (lt : Int) (l : List Nat) (s : Net K V) (h : Inv s) (hn : NE s) (hl : l.Nodup) (hs : ∀ e ∈ l, e ∈ s.edges) :
    ∃ s', removeAged lt l s = .ok s' ∧ Inv s' ∧ NE s' ∧ s'.ed = s.ed ∧ (∀ u ∈ s'.units, u ∈ s.units) ∧
      ∀ e, e ∈ s'.edges ↔ e ∈ s.edges ∧ ¬ (e ∈ l ∧ (s.ed e).age > lt) := by
  induction l generalizing s with
  | nil => exact ⟨s, rfl, h, hn, rfl, fun u hu => hu, by simp⟩
  | cons x l ih =>
    rw [List.nodup_cons] at hl
    unfold removeAged
    split_ifs with hc
    · obtain ⟨s1, e1, i1, i2, i3, i4, i5⟩ := purgeEdge_inv s h hn x (hs x (by simp))
      rw [e1]
      have hmem : ∀ e, e ∈ s1.edges ↔ e ≠ x ∧ e ∈ s.edges := by intro e; rw [i3]; exact h.en.mem_erase_iff
      obtain ⟨s', e', j1, j2, j3, j4, j5⟩ := ih s1 i1 i2 hl.2 (by
        intro e he; rw [hmem]; exact ⟨fun hh => hl.1 (hh ▸ he), hs e (by simp [he])⟩)
      refine ⟨s', e', j1, j2, j3.trans i4, fun u hu => i5 u (j4 u hu), ?_⟩
      intro e
      rw [j5, hmem, i4]
      by_cases hex : e = x
      · subst hex; simp [hc]
      · simp [hex]
    · obtain ⟨s', e', j1, j2, j3, j4, j5⟩ := ih s h hn hl.2 (fun e he => hs e (by simp [he]))
      refine ⟨s', e', j1, j2, j3, j4, ?_⟩
      intro e
      rw [j5]
      by_cases hex : e = x
      · subst hex; simp only [List.mem_cons, true_or, true_and]; constructor
        · rintro ⟨a, _⟩; exact ⟨a, hc⟩
        · rintro ⟨a, _⟩; exact ⟨a, fun hh => hc hh.2⟩
      · simp [hex]

theorem batch_spec (p : Par K V) (hlt : 0 ≤ p.lifetime) (x : Nat → V) (n i : Nat) (s : Net K V) (h : Inv s) (hn : NE s) (he : s.edges ≠ []) :
    ∃ s', batch p x n i s = .ok s' ∧ Inv s' ∧ NE s' ∧ s'.edges ≠ [] ∧ (n ≠ 0 → ∀ e ∈ s'.edges, (s'.ed e).age ≤ p.lifetime) ∧ ∀ u ∈ s'.units, u ∈ s.units := by
  induction n generalizing i s with
  | zero => exact ⟨s, rfl, h, hn, he, by simp, fun u hu => hu⟩
  | succ n ih =>
    unfold batch
    obtain ⟨s1, a, b, e1, i1, i2, i3, _, _, _, _, _, ⟨e, k1, k2, k3⟩, _⟩ := adapt_spec p (x i) s h hn he
    rw [e1]
    dsimp only
    obtain ⟨s2, e2, j1, j2, j3, j4, j5⟩ := removeAged_spec p.lifetime s1.edges s1 i1 i2 i1.en (fun e he => he)
    rw [e2]
    dsimp only
    have hne : s2.edges ≠ [] := by
      have : e ∈ s2.edges := (j5 e).2 ⟨k1, fun hc => by rw [k3] at hc; omega⟩
      intro h0; rw [h0] at this; simp at this
    obtain ⟨s', e3, m1, m2, m3, m4, m5⟩ := ih (i+1) s2 j1 j2 hne
    refine ⟨s', e3, m1, m2, m3, ?_, fun u hu => by rw [← i3]; exact j4 u (m5 u hu)⟩
    intro _
    by_cases h0 : n = 0
    · subst h0
      simp only [batch, Res.ok.injEq] at e3
      subst e3
      intro e' he'
      rw [j3]
      have := (j5 e').1 he'
      by_contra hc
      exact this.2 ⟨this.1, by omega⟩
    · exact m4 h0

/-- Growth keeps the graph: the new unit takes the place of the edge between the pivot and its seed. -/
theorem grow_spec (p : Par K V) (s : Net K V) (h : Inv s) (hn : NE s) (he : s.edges ≠ []) :
    ∃ s' a b, grow p s = .ok s' ∧ Inv s' ∧ NE s' ∧ s'.edges ≠ [] ∧ s'.units = s.units ++ [s.nu] ∧
      a ∈ s.units ∧ b ∈ s.units ∧ (∀ u ∈ s.units, s.err u ≤ s.err a) ∧ (∃ e ∈ s.edges, joins (s.ed e) a b = true) ∧
      (∀ u, (∃ e ∈ s.edges, joins (s.ed e) a u = true) → s.err u ≤ s.err b) ∧
      (∀ e ∈ s'.edges, joins (s'.ed e) a b = false) ∧ (∃ e ∈ s'.edges, joins (s'.ed e) a s.nu = true) ∧ (∃ e ∈ s'.edges, joins (s'.ed e) b s.nu = true) ∧
      s'.v s.nu = p.mid (s.v a) (s.v b) := by
  have hU : s.units ≠ [] := by
    obtain ⟨e, l, hl⟩ := List.exists_cons_of_ne_nil he
    intro h0
    have := (h.ex e (by rw [hl]; simp)).1
    rw [h0] at this; simp at this
  obtain ⟨a, e0, ha, hmax⟩ := findPivot_spec s.err s.units hU
  obtain ⟨b, e1, hb, hba, hjoin, hseed⟩ := findSeed_spec s h hn a ha
  unfold grow
  rw [e0]
  dsimp only
  rw [e1]
  dsimp only
  generalize herr : upd (upd s.err a (s.err a * p.r1)) b _ = err2
  have hI0 : Inv { s with err := err2 } := h.congr rfl rfl rfl (fun _ => rfl) (fun _ => rfl) rfl rfl
  have hI1 := addUnit_inv { s with err := err2 } hI0 (p.mid (s.v a) (s.v b)) (err2 a)
  have hv1 : (addUnit { s with err := err2 } (p.mid (s.v a) (s.v b)) (err2 a)).v s.nu = p.mid (s.v a) (s.v b) := upd_same _ _ _
  have hep1 : ∀ u ∈ s.units, (addUnit { s with err := err2 } (p.mid (s.v a) (s.v b)) (err2 a)).ep u = s.ep u := fun u hu => upd_ne _ _ (h.nu u hu).ne
  have hedges1 : (addUnit { s with err := err2 } (p.mid (s.v a) (s.v b)) (err2 a)).edges = s.edges := rfl
  have hed1 : (addUnit { s with err := err2 } (p.mid (s.v a) (s.v b)) (err2 a)).ed = s.ed := rfl
  have hun1 : (addUnit { s with err := err2 } (p.mid (s.v a) (s.v b)) (err2 a)).units = s.units ++ [s.nu] := rfl
  generalize addUnit { s with err := err2 } (p.mid (s.v a) (s.v b)) (err2 a) = s1 at hI1 hv1 hep1 hedges1 hed1 hun1 ⊢
  have han : a ≠ s.nu := (h.nu a ha).ne
  have hbn : b ≠ s.nu := (h.nu b hb).ne
  have hfree : ∀ e ∈ s.edges, ∀ u, joins (s.ed e) u s.nu = false := by
    intro e hee u
    by_contra hc
    have hc' : joins (s.ed e) u s.nu = true := by simpa using hc
    rw [joins_iff] at hc'
    obtain ⟨k1, k2⟩ := h.ex e hee
    have := h.nu _ k1
    have := h.nu _ k2
    omega
  obtain ⟨s2, e2, c1, c2, c3, c4, c5, c6, c7, c8, c9⟩ := connect_inv s1 hI1 a s.nu han (by rw [hun1]; simp [ha]) (by rw [hun1]; simp)
    (by intro e hee; rw [hed1]; rw [hedges1] at hee; exact hfree e hee a)
  rw [e2]
  dsimp only
  have hun2 : s2.units = s.units ++ [s.nu] := c2.trans hun1
  obtain ⟨s3, e3, d1, d2, d3, d4, d5, d6, d7, d8, d9⟩ := connect_inv s2 c1 b s.nu hbn (by rw [hun2]; simp [hb]) (by rw [hun2]; simp)
    (by
      intro e hee
      rw [c3] at hee
      rcases List.mem_append.1 hee with hee | hee
      · rw [c4 e hee, hed1]; rw [hedges1] at hee; exact hfree e hee b
      · rw [List.mem_singleton.1 hee, c5]
        by_contra hc
        have hc' : joins (⟨0, a, s.nu⟩ : Edge) b s.nu = true := by simpa using hc
        rw [joins_iff] at hc'
        dsimp only at hc'
        omega)
  rw [e3]
  dsimp only
  have hun3 : s3.units = s.units ++ [s.nu] := d2.trans hun2
  have hn3 : NE s3 := by
    intro u hu
    rw [hun3] at hu
    rcases List.mem_append.1 hu with hu | hu
    · rcases d6 u with hh | ⟨_, _, hh⟩
      · exact hh
      · rw [hh]
        rcases c6 u with hh | ⟨_, _, hh⟩
        · exact hh
        · rw [hh, hep1 u hu]; exact hn u hu
    · rw [List.mem_singleton.1 hu]
      rcases d6 s.nu with hh | ⟨_, hh, _⟩
      · exact hh
      · exact absurd rfl hh
  -- the edges of the pivot and the seed to the new unit
  have m2 : ∀ e ∈ s2.edges, e ∈ s3.edges ∧ s3.ed e = s2.ed e := fun e hee => ⟨by rw [d3]; simp [hee], d4 e hee⟩
  have mA : s1.ne ∈ s3.edges ∧ s3.ed s1.ne = ⟨0, a, s.nu⟩ := by
    have := m2 s1.ne (by rw [c3]; simp)
    exact ⟨this.1, this.2.trans c5⟩
  have mB : s2.ne ∈ s3.edges ∧ s3.ed s2.ne = ⟨0, b, s.nu⟩ := ⟨by rw [d3]; simp, d5⟩
  obtain ⟨e, hee, hj⟩ := hjoin
  have hee3 : e ∈ s3.edges ∧ s3.ed e = s.ed e := by
    have k1 : e ∈ s1.edges := by rw [hedges1]; exact hee
    have k2 : e ∈ s2.edges := by rw [c3]; simp [k1]
    exact ⟨(m2 e k2).1, by rw [(m2 e k2).2, c4 e k1, hed1]⟩
  unfold disconnect
  have hfind : ∃ e', s3.edges.find? (fun e => joins (s3.ed e) a b) = some e' ∧ e' ∈ s3.edges ∧ joins (s3.ed e') a b = true := by
    cases hf : s3.edges.find? (fun e => joins (s3.ed e) a b) with
    | none =>
      rw [List.find?_eq_none] at hf
      have := hf e hee3.1
      rw [hee3.2] at this
      exact absurd hj this
    | some e' => exact ⟨e', rfl, List.mem_of_find?_eq_some hf, by simpa using List.find?_some hf⟩
  obtain ⟨e', ef, hm', hj'⟩ := hfind
  rw [ef]
  dsimp only
  have hA : s1.ne ≠ e' := by
    intro hc
    rw [← hc, mA.2, joins_iff] at hj'
    dsimp only at hj'
    omega
  have hB : s2.ne ≠ e' := by
    intro hc
    rw [← hc, mB.2, joins_iff] at hj'
    dsimp only at hj'
    omega
  obtain ⟨s4, e4, g1, g2, g3, g4, g5⟩ := purgeEdge_inv s3 d1 hn3 e' hm'
  have hmem4 : ∀ x, x ∈ s4.edges ↔ x ≠ e' ∧ x ∈ s3.edges := by intro x; rw [g3]; exact d1.en.mem_erase_iff
  have hv4 : s4.v = s3.v := by
    exact purgeEdge_v s3 e' s4 e4
  -- no unit is lost, since both ends keep an edge
  have hun4 : s4.units = s.units ++ [s.nu] := by
    rw [← hun3]
    have hends : ∀ u, (s3.ep u).erase e' = [] → u = (s3.ed e').u1 ∨ u = (s3.ed e').u2 → False := by
      intro u h0 hu
      have huab : u = a ∨ u = b := by rw [joins_iff] at hj'; omega
      have hnot : ∀ x ∈ s3.edges, x ≠ e' → Ends (s3.ed x) u → False := by
        intro x hx hxe hxu
        have huu : u ∈ s3.units := by rw [hun3]; rcases huab with rfl | rfl <;> simp [ha, hb]
        have : x ∈ (s3.ep u).erase e' := ((d1.epn u huu).mem_erase_iff).2 ⟨hxe, (d1.ep u huu x).2 ⟨hx, hxu⟩⟩
        rw [h0] at this; simp at this
      rcases huab with rfl | rfl
      · exact hnot _ mA.1 hA (by rw [mA.2]; exact .inl rfl)
      · exact hnot _ mB.1 hB (by rw [mB.2]; exact .inl rfl)
    have hne' := d1.ne e' hm'
    unfold purgeEdge at e4
    rw [if_pos ⟨hm', (d1.ex e' hm').1⟩] at e4
    dsimp only at e4
    have q1 : purgeEnd s3 e' (s3.ed e').u1 = { s3 with ep := upd s3.ep (s3.ed e').u1 ((s3.ep (s3.ed e').u1).erase e') } := by
      unfold purgeEnd; rw [if_neg (fun h0 => hends _ h0 (.inl rfl))]
    rw [q1] at e4
    dsimp only at e4
    rw [if_pos (d1.ex e' hm').2] at e4
    simp only [Res.ok.injEq] at e4
    rw [← e4]
    dsimp only
    unfold purgeEnd
    split_ifs with h0
    · dsimp only at h0
      rw [upd_ne _ _ (Ne.symm hne')] at h0
      exact absurd (.inr rfl) (hends _ h0)
    · rfl
  rw [e4]
  dsimp only
  refine ⟨_, a, b, rfl, g1.congr rfl rfl rfl (fun _ => rfl) (fun _ => rfl) rfl rfl, g2, ?_, hun4, ha, hb, hmax, ⟨e, hee, hj⟩, hseed, ?_, ?_, ?_, ?_⟩
  · dsimp only
    have : s1.ne ∈ s4.edges := (hmem4 _).2 ⟨hA, mA.1⟩
    intro h0; rw [h0] at this; simp at this
  · intro x hx
    dsimp only at hx ⊢
    obtain ⟨k1, k2⟩ := (hmem4 x).1 hx
    rw [g4]
    by_contra hc
    have hc' : joins (s3.ed x) a b = true := by simpa using hc
    refine k1 (d1.si x k2 e' hm' ?_)
    rw [joins_iff] at hc' hj' ⊢
    omega
  · exact ⟨s1.ne, (hmem4 _).2 ⟨hA, mA.1⟩, by dsimp only; rw [g4, mA.2, joins_iff]; exact .inl ⟨rfl, rfl⟩⟩
  · exact ⟨s2.ne, (hmem4 _).2 ⟨hB, mB.1⟩, by dsimp only; rw [g4, mB.2, joins_iff]; exact .inl ⟨rfl, rfl⟩⟩
  · dsimp only
    rw [hv4, d7, c7, hv1]

theorem secondSample_spec (eq : V → V → Bool) (x : Nat → V) (k i : Nat) (y : V) (h : secondSample eq x k i = .ok y) : eq y (x 0) = false := by
  induction k generalizing i with
  | zero => simp [secondSample] at h
  | succ k ih =>
    unfold secondSample at h
    split_ifs at h with hc
    · exact ih _ h
    · simp only [Res.ok.injEq] at h
      rw [← h]; simpa using hc

/-- The initial network: two units with different vectors and one edge. -/
theorem zGNGInit_spec (eq : V → V → Bool) (x : Nat → V) (fuel i : Nat) (hi : i < fuel) (hne : eq (x (i+1)) (x 0) = false) :
    ∃ s : Net K V, zGNGInit eq x fuel = .ok s ∧ Inv s ∧ NE s ∧ s.edges ≠ [] ∧ s.units = [0, 1] ∧ s.v 0 = x 0 ∧ eq (s.v 1) (s.v 0) = false := by
  have hs : ∃ y, secondSample eq x fuel 1 = .ok y := by
    have gen : ∀ k j, j ≤ i + 1 → i + 1 < j + k → ∃ y, secondSample eq x k j = .ok y := by
      intro k
      induction k with
      | zero => intro j h1 h2; omega
      | succ k ih =>
        intro j h1 h2
        unfold secondSample
        by_cases hc : eq (x j) (x 0) = true
        · rw [if_pos hc]
          refine ih (j+1) ?_ (by omega)
          by_contra hh
          have : j = i + 1 := by omega
          rw [this, hne] at hc; simp at hc
        · rw [if_neg hc]; exact ⟨_, rfl⟩
    exact gen fuel 1 (by omega) (by omega)
  obtain ⟨y, hy⟩ := hs
  unfold zGNGInit
  rw [hy]
  dsimp only
  have h0 : Inv (⟨[], fun _ => x 0, fun _ => 0, fun _ => [], [], fun _ => ⟨0, 0, 0⟩, 0, 0⟩ : Net K V) := by
    refine ⟨List.nodup_nil, List.nodup_nil, ?_, ?_, ?_, ?_, ?_, ?_, ?_⟩ <;> intro u hu <;> simp at hu
  obtain ⟨s, e, c1, c2, c3, c4, c5, c6, c7, _⟩ := connect_inv _ (addUnit_inv _ (addUnit_inv _ h0 (x 0) 0) y 0) 0 1 (by decide) (by simp [addUnit]) (by simp [addUnit])
    (by intro e he; simp [addUnit] at he)
  refine ⟨s, e, c1, ?_, by rw [c3]; simp, c2, by rw [c7]; rfl, ?_⟩
  · intro u hu
    rcases c6 u with hh | ⟨h1, h2, _⟩
    · exact hh
    · rw [c2] at hu; simp [addUnit] at hu; omega
  · rw [c7]; exact secondSample_spec eq x _ _ _ hy

/-- One update. -/
theorem zGNGUpdate_inv (p : Par K V) (hlt : 0 ≤ p.lifetime) (x : Nat → V) (s : Net K V) (h : Inv s) (hn : NE s) (he : s.edges ≠ []) :
    ∃ s', zGNGUpdate p x s = .ok s' ∧ Inv s' ∧ NE s' ∧ s'.edges ≠ [] := by
  unfold zGNGUpdate
  obtain ⟨s1, e1, i1, i2, i3, _⟩ := batch_spec p hlt x p.batch 0 s h hn he
  rw [e1]
  obtain ⟨s2, _, _, e2, j1, j2, j3, _⟩ := grow_spec p s1 i1 i2 i3
  exact ⟨s2, e2, j1, j2, j3⟩

/-- Any sequence of updates; the parameters and the samples may change from one to the next. -/
def history : List (Par K V × (Nat → V)) → Net K V → Res (Net K V)
  | [], s => .ok s
  | c :: l, s =>
    match zGNGUpdate c.1 c.2 s with
    | .ok s => history l s
    | .fail => .fail
    | .ub => .ub

theorem history_inv (l : List (Par K V × (Nat → V))) (hl : ∀ c ∈ l, 0 ≤ c.1.lifetime) (s : Net K V) (h : Inv s) (hn : NE s) (he : s.edges ≠ []) :
    ∃ s', history l s = .ok s' ∧ Inv s' ∧ NE s' ∧ s'.edges ≠ [] := by
  induction l generalizing s with
  | nil => exact ⟨s, rfl, h, hn, he⟩
  | cons c l ih =>
    obtain ⟨s1, e1, i1, i2, i3⟩ := zGNGUpdate_inv c.1 (hl c (by simp)) c.2 s h hn he
    unfold history
    rw [e1]
    exact ih (fun c hc => hl c (by simp [hc])) s1 i1 i2 i3

/-- C66: from the initial network, after any sequence of updates with lifetimes that are not negative, every edge joins two distinct existing units, no pair is joined twice and
every unit has an edge; no freed cell is ever read.  The sampler must sooner or later give a second point. -/
theorem zGNG_history (eq : V → V → Bool) (x : Nat → V) (fuel i : Nat) (hi : i < fuel) (hne : eq (x (i+1)) (x 0) = false) (l : List (Par K V × (Nat → V)))
    (hl : ∀ c ∈ l, 0 ≤ c.1.lifetime) :
    ∃ s s' : Net K V, zGNGInit eq x fuel = .ok s ∧ history l s = .ok s' ∧ Graph s' ∧ 2 ≤ s'.units.length := by
  obtain ⟨s, e, h, hn, he, _⟩ := zGNGInit_spec (K := K) eq x fuel i hi hne
  obtain ⟨s', e', h', hn', he'⟩ := history_inv l hl s h hn he
  exact ⟨s, s', e, e', h'.graph hn', h'.two he'⟩

/-- Destruction frees every unit and every edge of a well-formed network. -/
theorem zGNGDestroy_spec (k : Nat) (s : Net K V) (h : Inv s) (hn : NE s) (hk : s.edges.length ≤ k) :
    ∃ s', zGNGDestroy k s = .ok s' ∧ s'.edges = [] ∧ s'.units = [] := by
  induction k generalizing s with
  | zero =>
    have h0 : s.edges = [] := List.length_eq_zero_iff.1 (by omega)
    refine ⟨s, by unfold zGNGDestroy; rw [h0]; rfl, h0, ?_⟩
    by_contra hc
    obtain ⟨u, r, hr⟩ := List.exists_cons_of_ne_nil hc
    obtain ⟨e, he, _⟩ := (h.graph hn).covered u (by rw [hr]; simp)
    rw [h0] at he; simp at he
  | succ k ih =>
    unfold zGNGDestroy
    cases hg : s.edges.getLast? with
    | none =>
      have h0 : s.edges = [] := List.getLast?_eq_none_iff.1 hg
      refine ⟨s, rfl, h0, ?_⟩
      by_contra hc
      obtain ⟨u, r, hr⟩ := List.exists_cons_of_ne_nil hc
      obtain ⟨e, he, _⟩ := (h.graph hn).covered u (by rw [hr]; simp)
      rw [h0] at he; simp at he
    | some e =>
      dsimp only
      have hm : e ∈ s.edges := List.mem_of_getLast? hg
      obtain ⟨s1, e1, i1, i2, i3, _⟩ := purgeEdge_inv s h hn e hm
      rw [e1]
      exact ih s1 i1 i2 (by rw [i3, List.length_erase_of_mem hm]; omega)

/-- A lifetime below zero breaks the network: the first removal takes every edge and every unit, and the next step reads the tail of an empty list. -/
theorem zGNGUpdate_lifetime_violated :
    (match zGNGInit (K := ℚ) (V := ℚ) (fun a b => decide (a = b)) (fun i => i) 1 with
      | .ok s => (match zGNGUpdate (K := ℚ) (V := ℚ) ⟨-1, 1/2, 1/4, 1/2, 1/2, 1, fun a b => (a - b)^2, fun a b c => a + c * (b - a), fun a b => (a + b) / 2⟩ (fun i => i) s with
        | .ub => true | _ => false)
      | _ => false) = true := by decide +kernel

/-- A concrete run on the line: two units at 0 and 1, two samples and a growth give the units 0, 1, 2 and the edges 0-2 and 1-2. -/
example : (match zGNGInit (K := ℚ) (V := ℚ) (fun a b => decide (a = b)) (fun i => i) 1 with
      | .ok s => (match zGNGUpdate (K := ℚ) (V := ℚ) ⟨10, 1/2, 1/4, 1/2, 1/2, 2, fun a b => (a - b)^2, fun a b c => a + c * (b - a), fun a b => (a + b) / 2⟩ (fun i => i) s with
        | .ok s => decide (s.units = [0, 1, 2] ∧ s.edges = [1, 2] ∧ s.ep 0 = [2] ∧ s.ep 1 = [1] ∧ s.ep 2 = [1, 2]) | _ => false)
      | _ => false) = true := by decide +kernel

end Zm.GNG
