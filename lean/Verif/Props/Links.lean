import Verif.Model.Links
import Verif.Model.RRT
import Mathlib.Data.List.Nodup
import Mathlib.Data.List.Flatten
import Mathlib.Data.List.Perm.Basic
import Mathlib.Tactic.Tauto

/-! # C230: traversals that move or remove cells -/

set_option linter.unusedSectionVars false

namespace Zm.Links

/-- Each element is followed by the next one, and preceded by the one before. -/
def Linked (m : Ptrs) : List Nat → Prop
  | a :: b :: t => m.nx a = b ∧ m.pv b = a ∧ Linked m (b :: t)
  | _ => True

/-- The pointers form, for each of the roots, the list of cells `L r` from its tail to its head, and no cell or root is in two places. -/
structure Reps (m : Ptrs) (roots : List Nat) (L : Nat → List Nat) : Prop where
  linked : ∀ r ∈ roots, Linked m (r :: L r ++ [r])
  nodup : (roots.flatMap fun r => r :: L r).Nodup

theorem Linked.congr {m m' : Ptrs} : ∀ {t : List Nat}, Linked m t → (∀ a ∈ t.dropLast, m'.nx a = m.nx a) → (∀ a ∈ t.tail, m'.pv a = m.pv a) → Linked m' t
  | [], _, _, _ => trivial
  | [_], _, _, _ => trivial
  | a :: b :: t, h, h1, h2 => by
    obtain ⟨e1, e2, h3⟩ := h
    refine ⟨?_, ?_, Linked.congr h3 ?_ ?_⟩
    · rw [h1 a (by simp), e1]
    · rw [h2 b (by simp), e2]
    · intro x hx; exact h1 x (by simp only [List.dropLast_cons₂, List.mem_cons]; exact Or.inr hx)
    · intro x hx; exact h2 x (by simp only [List.tail_cons] at *; exact List.mem_cons_of_mem _ hx)

theorem linked_split {m : Ptrs} : ∀ {A : List Nat} {p n : Nat} {B : List Nat},
    Linked m (A ++ p :: n :: B) ↔ Linked m (A ++ [p]) ∧ m.nx p = n ∧ m.pv n = p ∧ Linked m (n :: B)
  | [], p, n, B => by simp [Linked]
  | [a], p, n, B => by simp [Linked]; tauto
  | a :: b :: A, p, n, B => by
    have := linked_split (m := m) (A := b :: A) (p := p) (n := n) (B := B)
    simp only [List.cons_append, Linked] at this ⊢
    tauto

/-- A list of a root seen from the pointers: nothing but the neighbours of a place changes when other pointers do. -/
theorem Reps.other {m m' : Ptrs} {roots : List Nat} {L : Nat → List Nat} (h : Reps m roots L) {q : Nat} (hq : q ∈ roots)
    (h1 : ∀ a ∈ q :: L q, m'.nx a = m.nx a) (h2 : ∀ a ∈ q :: L q, m'.pv a = m.pv a) : Linked m' (q :: L q ++ [q]) := by
  refine (h.linked q hq).congr ?_ ?_
  · intro a ha
    have : (q :: L q ++ [q]).dropLast = q :: L q := by rw [List.dropLast_concat]
    rw [this] at ha
    exact h1 a ha
  · intro a ha
    refine h2 a ?_
    simp only [List.cons_append, List.tail_cons, List.mem_append, List.mem_singleton] at ha
    rcases ha with ha | ha
    · exact List.mem_cons_of_mem _ ha
    · exact ha ▸ List.mem_cons_self ..

theorem disj {roots : List Nat} {L : Nat → List Nat} (h : (roots.flatMap fun r => r :: L r).Nodup) {r q : Nat} (hr : r ∈ roots) (hq : q ∈ roots) (hn : r ≠ q)
    {a : Nat} (ha : a ∈ r :: L r) (hb : a ∈ q :: L q) : False := by
  have hp := (List.nodup_flatMap.1 h).2
  by_contra
  have key : ∀ (l : List Nat), List.Pairwise (Function.onFun List.Disjoint fun r => r :: L r) l → r ∈ l → q ∈ l → False := by
    intro l
    induction l with
    | nil => intro _ h; simp at h
    | cons x l ih =>
      intro hp h1 h2
      rw [List.pairwise_cons] at hp
      rcases List.mem_cons.1 h1 with e1 | h1
      · rcases List.mem_cons.1 h2 with e2 | h2
        · exact hn (e1.trans e2.symm)
        · exact hp.1 q h2 (e1 ▸ ha) hb
      · rcases List.mem_cons.1 h2 with e2 | h2
        · exact hp.1 r h1 (e2 ▸ hb) ha
        · exact ih hp.2 h1 h2
  exact key roots hp hr hq

theorem self_nodup {roots : List Nat} {L : Nat → List Nat} (h : (roots.flatMap fun r => r :: L r).Nodup) {r : Nat} (hr : r ∈ roots) : (r :: L r).Nodup :=
  (List.nodup_flatMap.1 h).1 r hr

theorem roots_nodup {roots : List Nat} {L : Nat → List Nat} (h : (roots.flatMap fun r => r :: L r).Nodup) : roots.Nodup := by
  have hp := (List.nodup_flatMap.1 h).2
  refine hp.imp ?_
  intro a b hd hab
  exact hd (List.mem_cons_self ..) (hab ▸ List.mem_cons_self ..)

theorem nodup_of {roots : List Nat} {L : Nat → List Nat} (hr : roots.Nodup) (hs : ∀ r ∈ roots, (r :: L r).Nodup)
    (hd : ∀ r ∈ roots, ∀ q ∈ roots, r ≠ q → ∀ a, a ∈ r :: L r → a ∉ q :: L q) : (roots.flatMap fun r => r :: L r).Nodup := by
  refine List.nodup_flatMap.2 ⟨hs, ?_⟩
  refine List.Pairwise.imp_of_mem ?_ hr
  intro a b ha hb hab x hx hy
  exact hd a ha b hb hab x hx hy

/-- What surrounds a cell. -/
theorem around {m : Ptrs} {r c : Nat} {l1 l2 : List Nat} (h : Linked m (r :: (l1 ++ c :: l2) ++ [r])) :
    ∃ A p n B, r :: l1 = A ++ [p] ∧ l2 ++ [r] = n :: B ∧ m.pv c = p ∧ m.nx c = n ∧ Linked m (A ++ [p]) ∧ Linked m (n :: B) := by
  obtain ⟨A, p, hA⟩ : ∃ A p, r :: l1 = A ++ [p] := ⟨(r :: l1).dropLast, (r :: l1).getLast (by simp), (List.dropLast_append_getLast (by simp)).symm⟩
  obtain ⟨n, B, hB⟩ : ∃ n B, l2 ++ [r] = n :: B := by
    cases l2 with
    | nil => exact ⟨r, [], rfl⟩
    | cons x l2 => exact ⟨x, l2 ++ [r], rfl⟩
  have e : r :: (l1 ++ c :: l2) ++ [r] = A ++ p :: c :: (n :: B) := by
    have : r :: (l1 ++ c :: l2) ++ [r] = (r :: l1) ++ c :: (l2 ++ [r]) := by simp
    rw [this, hA, hB]
    simp
  rw [e, linked_split] at h
  obtain ⟨h1, _, h3, h4⟩ := h
  exact ⟨A, p, n, B, hA, hB, h3, h4.1, h1, h4.2.2⟩

theorem purge_reps {m : Ptrs} {roots : List Nat} {L : Nat → List Nat} (h : Reps m roots L) {r c : Nat} {l1 l2 : List Nat} (hr : r ∈ roots) (hl : L r = l1 ++ c :: l2) :
    Reps (purge m c) roots (set1 L r (l1 ++ l2)) ∧ (∀ q ∈ roots, c ∉ q :: set1 L r (l1 ++ l2) q) ∧ m.pv c = (r :: l1).getLast (by simp) ∧
      (purge m c).nx (m.pv c) = l2.headD r := by
  have hlk := h.linked r hr
  have hnd := self_nodup h.nodup hr
  rw [hl] at hlk hnd
  obtain ⟨A, p, n, B, hA, hB, ep, en, k1, k2⟩ := around hlk
  have hcr : c ≠ r := fun e => (List.nodup_cons.1 hnd).1 (by simp [e])
  have hp : p ∈ r :: l1 := by rw [hA]; simp
  have hn : n ∈ l2 ++ [r] := by rw [hB]; simp
  have hrl : r ∉ l1 ∧ r ∉ l2 := by
    have := (List.nodup_cons.1 hnd).1
    simp only [List.mem_append, List.mem_cons, not_or] at this
    exact ⟨this.1, this.2.2⟩
  have hnd2 := (List.nodup_cons.1 hnd).2
  have hl12 : ∀ x ∈ l1, x ∉ c :: l2 := fun x h1 h2 => (List.nodup_append.1 hnd2).2.2 x h1 x h2 rfl
  have hl1 : l1.Nodup := (List.nodup_append.1 hnd2).1
  have hl2 : (c :: l2).Nodup := (List.nodup_append.1 hnd2).2.1
  have hpm : p = r ∨ p ∈ l1 := by simpa using hp
  have hnm : n ∈ l2 ∨ n = r := by simpa using hn
  have hm : purge m c = bind m p n := by unfold purge; rw [ep, en]
  have newR : Linked (bind m p n) (r :: (l1 ++ l2) ++ [r]) := by
    have e : r :: (l1 ++ l2) ++ [r] = A ++ p :: n :: B := by
      have : r :: (l1 ++ l2) ++ [r] = (r :: l1) ++ (l2 ++ [r]) := by simp
      rw [this, hA, hB]; simp
    rw [e, linked_split]
    refine ⟨k1.congr ?_ ?_, ?_, ?_, k2.congr ?_ ?_⟩
    · intro a ha
      rw [List.dropLast_concat] at ha
      refine set1_ne _ _ ?_
      rintro rfl
      have : (A ++ [a]).Nodup := hA ▸ (List.nodup_cons.2 ⟨hrl.1, hl1⟩)
      exact (List.nodup_append.1 this).2.2 a ha a (by simp) rfl
    · intro a ha
      rw [← hA, List.tail_cons] at ha
      refine set1_ne _ _ ?_
      rintro rfl
      rcases hnm with h | h
      · exact hl12 a ha (List.mem_cons_of_mem _ h)
      · exact hrl.1 (h ▸ ha)
    · exact set1_same ..
    · exact set1_same ..
    · intro a ha
      rw [← hB, List.dropLast_concat] at ha
      refine set1_ne _ _ ?_
      rintro rfl
      rcases hpm with h | h
      · exact hrl.2 (h ▸ ha)
      · exact hl12 a h (List.mem_cons_of_mem _ ha)
    · intro a ha
      refine set1_ne _ _ ?_
      rintro rfl
      have : (a :: B).Nodup := by
        rw [← hB]
        refine List.nodup_append.2 ⟨(List.nodup_cons.1 hl2).2, List.nodup_singleton _, ?_⟩
        intro x hx y hy e
        exact hrl.2 (by rw [List.mem_singleton] at hy; rw [← hy, ← e]; exact hx)
      exact (List.nodup_cons.1 this).1 ha
  have hsub : ∀ q, ∀ x ∈ q :: set1 L r (l1 ++ l2) q, x ∈ q :: L q := by
    intro q x hx
    by_cases e : q = r
    · subst e
      rw [set1_same] at hx
      rw [hl]
      simp only [List.mem_cons, List.mem_append] at hx ⊢
      tauto
    · rwa [set1_ne _ _ e] at hx
  refine ⟨⟨?_, ?_⟩, ?_, ?_, ?_⟩
  · intro q hq
    rw [hm]
    by_cases e : q = r
    · subst e; rw [set1_same]; exact newR
    · rw [set1_ne _ _ e]
      refine h.other hq ?_ ?_
      · intro a ha
        refine set1_ne _ _ ?_
        rintro rfl
        refine disj h.nodup hr hq (Ne.symm e) ?_ ha
        rw [hl]; simp only [List.mem_cons, List.mem_append]; tauto
      · intro a ha
        refine set1_ne _ _ ?_
        rintro rfl
        refine disj h.nodup hr hq (Ne.symm e) ?_ ha
        rw [hl]; simp only [List.mem_cons, List.mem_append]; tauto
  · refine nodup_of (roots_nodup h.nodup) ?_ ?_
    · intro q hq
      by_cases e : q = r
      · subst e
        rw [set1_same]
        refine List.nodup_cons.2 ⟨by simp only [List.mem_append, not_or]; exact hrl, ?_⟩
        exact List.nodup_append.2 ⟨hl1, (List.nodup_cons.1 hl2).2, fun x hx y hy e => hl12 x hx (List.mem_cons_of_mem _ (e ▸ hy))⟩
      · rw [set1_ne _ _ e]; exact self_nodup h.nodup hq
    · intro q hq q' hq' hne x hx hx'
      exact disj h.nodup hq hq' hne (hsub q x hx) (hsub q' x hx')
  · intro q hq hc
    by_cases e : q = r
    · subst e
      rw [set1_same] at hc
      simp only [List.mem_cons, List.mem_append] at hc
      rcases hc with hc | hc | hc
      · exact hcr hc
      · exact hl12 c hc (List.mem_cons_self ..)
      · exact (List.nodup_cons.1 hl2).1 hc
    · rw [set1_ne _ _ e] at hc
      refine disj h.nodup hr hq (Ne.symm e) ?_ hc
      rw [hl]; simp
  · rw [ep]
    have : (r :: l1).getLast (by simp) = (A ++ [p]).getLast (by simp) := by congr 1
    rw [this, List.getLast_concat]
  · rw [hm, ep]
    have : l2.headD r = n := by
      cases l2 with
      | nil => simp at hB; exact hB.1
      | cons x l2 => simp at hB; exact hB.1
    rw [this]
    exact set1_same ..

theorem insertHead_reps {m : Ptrs} {roots : List Nat} {L : Nat → List Nat} (h : Reps m roots L) {r c : Nat} (hr : r ∈ roots) (hc : ∀ q ∈ roots, c ∉ q :: L q) :
    Reps (insertHead m r c) roots (set1 L r (L r ++ [c])) ∧ (∀ x, x ≠ c → x ∉ r :: L r → (insertHead m r c).nx x = m.nx x) := by
  have hlk := h.linked r hr
  have hnd := self_nodup h.nodup hr
  obtain ⟨A, p, hA⟩ : ∃ A p, r :: L r = A ++ [p] := ⟨(r :: L r).dropLast, (r :: L r).getLast (by simp), (List.dropLast_append_getLast (by simp)).symm⟩
  rw [hA] at hlk
  have e0 : A ++ [p] ++ [r] = A ++ p :: r :: [] := by simp
  rw [e0, linked_split] at hlk
  obtain ⟨k1, _, ep, _⟩ := hlk
  have hp : p ∈ r :: L r := by rw [hA]; simp
  have hpc : p ≠ c := fun e => hc r hr (e ▸ hp)
  have hrc : r ≠ c := fun e => hc r hr (e ▸ List.mem_cons_self ..)
  have hpA : p ∉ A := by
    rw [hA] at hnd
    intro hp'
    exact (List.nodup_append.1 hnd).2.2 p hp' p (by simp) rfl
  unfold insertHead
  rw [ep]
  refine ⟨⟨?_, ?_⟩, ?_⟩
  · intro q hq
    by_cases e : q = r
    · subst e
      rw [set1_same]
      have e1 : q :: (L q ++ [c]) ++ [q] = A ++ p :: c :: [q] := by
        have : q :: (L q ++ [c]) ++ [q] = (q :: L q) ++ [c, q] := by simp
        rw [this, hA]; simp
      rw [e1, linked_split]
      refine ⟨k1.congr ?_ ?_, ?_, ?_, ?_⟩
      · intro a ha
        rw [List.dropLast_concat] at ha
        have h1 : a ≠ p := fun e => hpA (e ▸ ha)
        have h2 : a ≠ c := fun e => hc q hq (by rw [hA]; exact List.mem_append_left _ (e ▸ ha))
        simp only [bind]
        rw [set1_ne _ _ h1, set1_ne _ _ h2]
      · intro a ha
        rw [← hA, List.tail_cons] at ha
        have h1 : a ≠ c := fun e => hc q hq (List.mem_cons_of_mem _ (e ▸ ha))
        have h2 : a ≠ q := fun e => (List.nodup_cons.1 hnd).1 (e ▸ ha)
        simp only [bind]
        rw [set1_ne _ _ h1, set1_ne _ _ h2]
      · exact set1_same ..
      · exact set1_same ..
      · refine ⟨?_, ?_, trivial⟩
        · simp only [bind]
          rw [set1_ne _ _ (Ne.symm hpc)]
          exact set1_same ..
        · simp only [bind]
          rw [set1_ne _ _ hrc]
          exact set1_same ..
    · rw [set1_ne _ _ e]
      refine h.other hq ?_ ?_
      · intro a ha
        have h1 : a ≠ p := fun e' => disj h.nodup hr hq (Ne.symm e) hp (e' ▸ ha)
        have h2 : a ≠ c := fun e' => hc q hq (e' ▸ ha)
        simp only [bind]
        rw [set1_ne _ _ h1, set1_ne _ _ h2]
      · intro a ha
        have h1 : a ≠ c := fun e' => hc q hq (e' ▸ ha)
        have h2 : a ≠ r := fun e' => disj h.nodup hr hq (Ne.symm e) (List.mem_cons_self ..) (e' ▸ ha)
        simp only [bind]
        rw [set1_ne _ _ h1, set1_ne _ _ h2]
  · refine nodup_of (roots_nodup h.nodup) ?_ ?_
    · intro q hq
      by_cases e : q = r
      · subst e
        rw [set1_same]
        have : (q :: L q ++ [c]).Nodup := List.nodup_append.2 ⟨hnd, List.nodup_singleton _, fun x hx y hy e => hc q hq (by rw [List.mem_singleton] at hy; rw [← hy, ← e]; exact hx)⟩
        exact this
      · rw [set1_ne _ _ e]; exact self_nodup h.nodup hq
    · have key : ∀ q ∈ roots, ∀ x ∈ q :: set1 L r (L r ++ [c]) q, x ∈ q :: L q ∨ (x = c ∧ q = r) := by
        intro q hq x hx
        by_cases e : q = r
        · subst e
          rw [set1_same] at hx
          simp only [List.mem_cons, List.mem_append, List.mem_singleton, List.not_mem_nil, or_false] at hx ⊢
          tauto
        · rw [set1_ne _ _ e] at hx; exact Or.inl hx
      intro q hq q' hq' hne x hx hx'
      rcases key q hq x hx with h1 | h1
      · rcases key q' hq' x hx' with h2 | h2
        · exact disj h.nodup hq hq' hne h1 h2
        · exact hc q hq (h2.1 ▸ h1)
      · rcases key q' hq' x hx' with h2 | h2
        · exact hc q' hq' (h1.1 ▸ h2)
        · exact hne (h1.2.trans h2.2.symm)
  · intro x hx hxr
    have h1 : x ≠ p := fun e => hxr (e ▸ hp)
    simp only [bind]
    rw [set1_ne _ _ h1, set1_ne _ _ hx]

theorem Reps.next {m : Ptrs} {roots : List Nat} {L : Nat → List Nat} (h : Reps m roots L) {r : Nat} (hr : r ∈ roots) {l1 l2 : List Nat} {x : Nat} (hl : r :: L r = l1 ++ x :: l2) :
    m.nx x = l2.headD r := by
  have hk := h.linked r hr
  rw [hl] at hk
  cases l2 with
  | nil =>
    have : l1 ++ [x] ++ [r] = l1 ++ x :: r :: [] := by simp
    rw [this, linked_split] at hk
    exact hk.2.1
  | cons y l2 =>
    have : l1 ++ x :: y :: l2 ++ [r] = l1 ++ x :: y :: (l2 ++ [r]) := by simp
    rw [this, linked_split] at hk
    exact hk.2.1

theorem moveLoop_ne (dest : Nat → Nat) {r cp : Nat} (k : Nat) (m : Ptrs) (h : cp ≠ r) : moveLoop dest r (k + 1) m cp =
    if dest cp = r then moveLoop dest r k m (m.nx cp)
    else moveLoop dest r k (insertHead (purge m cp) (dest cp) cp) ((insertHead (purge m cp) (dest cp) cp).nx (m.pv cp)) := by
  rw [moveLoop, if_neg h]

theorem purgeLoop_ne (old : Nat → Bool) {r cp : Nat} (k : Nat) (m : Ptrs) (h : cp ≠ r) : purgeLoop old r (k + 1) m cp =
    if old cp = true then purgeLoop old r k (purge m cp) ((purge m cp).nx (m.pv cp)) else purgeLoop old r k m (m.nx cp) := by
  rw [purgeLoop, if_neg h]

theorem zSeqJump_ne (m : Ptrs) {r cp : Nat} (k : Nat) (step : Int) (h : cp ≠ r) : zSeqJump m r (k + 1) cp step =
    if step ≤ 0 then some cp else zSeqJump m r k (m.pv cp) (step - 1) := by
  rw [zSeqJump, if_neg h]

/-- The lists after the cells of `l` have been sent where they are for: `r` keeps its own. -/
def sent (dest : Nat → Nat) (r : Nat) (l : List Nat) (L : Nat → List Nat) (q : Nat) : List Nat :=
  if q = r then l.filter fun c => dest c = r else L q ++ l.filter fun c => dest c = q

theorem moveLoop_spec (dest : Nat → Nat) {roots : List Nat} {r : Nat} (hr : r ∈ roots) : ∀ (rest : List Nat) (m : Ptrs) (L : Nat → List Nat) (done : List Nat), Reps m roots L →
    L r = done ++ rest → (∀ c ∈ rest, dest c ∈ roots) →
    ∃ m', moveLoop dest r (rest.length + 1) m (rest.headD r) = some m' ∧
      Reps m' roots (fun q => if q = r then done ++ rest.filter (fun c => dest c = r) else L q ++ rest.filter fun c => dest c = q)
  | [], m, L, done, h, hl, _ => by
    refine ⟨m, by simp [moveLoop], ?_⟩
    have : (fun q => if q = r then done ++ [].filter (fun c => dest c = r) else L q ++ [].filter fun c => dest c = q) = L := by
      funext q
      by_cases e : q = r
      · subst e; simp [hl]
      · simp [e]
    rw [this]
    exact h
  | c :: rest, m, L, done, h, hl, hd => by
    have hnd := self_nodup h.nodup hr
    have hcr : c ≠ r := by
      rintro rfl
      exact (List.nodup_cons.1 hnd).1 (by rw [hl]; simp)
    rw [List.headD_cons, List.length_cons, moveLoop_ne dest _ _ hcr]
    by_cases hdc : dest c = r
    · rw [if_pos hdc]
      have hnx : m.nx c = rest.headD r := h.next hr (l1 := r :: done) (by rw [hl]; simp)
      rw [hnx]
      obtain ⟨m', e, h'⟩ := moveLoop_spec dest hr rest m L (done ++ [c]) h (by rw [hl]; simp) (fun x hx => hd x (List.mem_cons_of_mem _ hx))
      refine ⟨m', e, ?_⟩
      have hf : (fun q => if q = r then done ++ (c :: rest).filter (fun c => dest c = r) else L q ++ (c :: rest).filter fun c => dest c = q) =
          (fun q => if q = r then done ++ [c] ++ rest.filter (fun c => dest c = r) else L q ++ rest.filter fun c => dest c = q) := by
        funext q
        by_cases e : q = r
        · simp [e, hdc]
        · have : dest c ≠ q := fun e' => e (e' ▸ hdc)
          simp [e, this]
      rw [hf]
      exact h'
    · rw [if_neg hdc]
      obtain ⟨h1, hc1, ep, en⟩ := purge_reps h hr hl
      have hdr := hd c (List.mem_cons_self ..)
      obtain ⟨h2, hn2⟩ := insertHead_reps h1 hdr hc1
      have hpm : m.pv c ∈ r :: done := by rw [ep]; exact List.getLast_mem _
      have hpr : m.pv c ∈ r :: set1 L r (done ++ rest) r := by
        rw [set1_same]
        simp only [List.mem_cons, List.mem_append] at hpm ⊢
        tauto
      have hpne : m.pv c ≠ c := fun e => hc1 r hr (by rw [e] at hpr; exact hpr)
      have hpq : m.pv c ∉ dest c :: set1 L r (done ++ rest) (dest c) := fun hx => disj h1.nodup hr hdr (Ne.symm hdc) hpr hx
      rw [hn2 _ hpne hpq, en]
      obtain ⟨m', e, h'⟩ := moveLoop_spec dest hr rest _ _ done h2 (by rw [set1_ne _ _ (Ne.symm hdc), set1_same]) (fun x hx => hd x (List.mem_cons_of_mem _ hx))
      refine ⟨m', e, ?_⟩
      have hf : (fun q => if q = r then done ++ (c :: rest).filter (fun c => dest c = r) else L q ++ (c :: rest).filter fun c => dest c = q) =
          (fun q => if q = r then done ++ rest.filter (fun c => dest c = r) else
            set1 (set1 L r (done ++ rest)) (dest c) (set1 L r (done ++ rest) (dest c) ++ [c]) q ++ rest.filter fun c => dest c = q) := by
        funext q
        by_cases e : q = r
        · simp [e, hdc]
        · by_cases e2 : q = dest c
          · subst e2
            simp [e, set1_same, set1_ne _ _ e]
          · have : dest c ≠ q := fun e' => e2 e'.symm
            simp [e, set1_ne _ _ e, set1_ne _ _ e2, this]
      rw [hf]
      exact h'

/-- A cell is visited once, whether cells before it were moved away or not: after the loop through the list `r` the cells in it are those that are for it, in their order, and all others are behind
those of the lists they are for. -/
theorem moveLoop_ok (dest : Nat → Nat) {m : Ptrs} {roots : List Nat} {L : Nat → List Nat} (h : Reps m roots L) {r : Nat} (hr : r ∈ roots) (hd : ∀ c ∈ L r, dest c ∈ roots) (k : Nat)
    (hk : (L r).length < k) : ∃ m', moveLoop dest r k m (m.nx r) = some m' ∧ Reps m' roots (sent dest r (L r) L) := by
  have mono : ∀ (n k : Nat) (m : Ptrs) (cp : Nat) (m' : Ptrs), n ≤ k → moveLoop dest r n m cp = some m' → moveLoop dest r k m cp = some m' := by
    intro n
    induction n with
    | zero => intro k m cp m' _ e; simp [moveLoop] at e
    | succ n ih =>
      intro k m cp m' hk e
      obtain ⟨k, rfl⟩ : ∃ j, k = j + 1 := ⟨k - 1, by omega⟩
      unfold moveLoop at e ⊢
      by_cases c1 : cp = r
      · rw [if_pos c1] at e ⊢; exact e
      · rw [if_neg c1] at e ⊢
        by_cases c2 : dest cp = r
        · rw [if_pos c2] at e ⊢; exact ih k _ _ _ (by omega) e
        · rw [if_neg c2] at e ⊢; exact ih k _ _ _ (by omega) e
  obtain ⟨m', e, h'⟩ := moveLoop_spec dest hr (L r) m L [] h rfl hd
  have hnx : m.nx r = (L r).headD r := h.next hr (l1 := []) rfl
  rw [hnx]
  refine ⟨m', mono _ k _ _ _ (by omega) e, ?_⟩
  have : sent dest r (L r) L = (fun q => if q = r then [] ++ (L r).filter (fun c => dest c = r) else L q ++ (L r).filter fun c => dest c = q) := by
    funext q; simp [sent]
  rw [this]
  exact h'

/-- **C230 (RANSAC).** The inliers are taken out of the list of samples and put into a list of their own, both in their order, and each sample is looked at. -/
theorem zRANSACSelectInlier_ok {m : Ptrs} {inlier sample : Nat} {l : List Nat} (pick : Nat → Bool) (hl : Linked m (sample :: l ++ [sample])) (hn : (inlier :: sample :: l).Nodup)
    (fuel : Nat) (hf : l.length < fuel) :
    ∃ m', zRANSACSelectInlier inlier sample pick fuel m = some m' ∧ Linked m' (sample :: l.filter (fun c => !pick c) ++ [sample]) ∧
      Linked m' (inlier :: l.filter pick ++ [inlier]) := by
  have hn1 := List.nodup_cons.1 hn
  have hne : inlier ≠ sample := fun e => hn1.1 (by simp [e])
  have hR : Reps (init m inlier) [inlier, sample] (fun q => if q = sample then l else []) := by
    refine ⟨?_, ?_⟩
    · intro q hq
      simp only [List.mem_cons, List.not_mem_nil, or_false] at hq
      rcases hq with rfl | rfl
      · rw [if_neg hne]
        exact ⟨set1_same .., set1_same .., trivial⟩
      · rw [if_pos rfl]
        refine hl.congr ?_ ?_
        · intro a ha
          rw [List.dropLast_concat] at ha
          refine set1_ne _ _ ?_
          rintro rfl
          exact hn1.1 ha
        · intro a ha
          refine set1_ne _ _ ?_
          rintro rfl
          refine hn1.1 ?_
          simp only [List.cons_append, List.tail_cons, List.mem_append, List.mem_singleton, List.mem_cons] at ha ⊢
          tauto
    · simp only [List.flatMap_cons, List.flatMap_nil, if_neg hne, if_true, List.append_nil, List.cons_append, List.nil_append]
      exact hn
  obtain ⟨m', e, h'⟩ := moveLoop_ok (fun c => if pick c then inlier else sample) hR (r := sample) (by simp) (by intro c _; by_cases h : pick c <;> simp [h]) fuel
    (by simpa using hf)
  refine ⟨m', e, ?_, ?_⟩
  · have := h'.linked sample (by simp)
    have e2 : sent (fun c => if pick c then inlier else sample) sample ((fun q => if q = sample then l else []) sample) (fun q => if q = sample then l else []) sample =
        l.filter (fun c => !pick c) := by
      simp only [sent, if_true]
      refine List.filter_congr ?_
      intro c _
      by_cases h : pick c <;> simp [h, hne]
    rw [e2] at this
    exact this
  · have := h'.linked inlier (by simp)
    have e2 : sent (fun c => if pick c then inlier else sample) sample ((fun q => if q = sample then l else []) sample) (fun q => if q = sample then l else []) inlier =
        l.filter pick := by
      simp only [sent, if_neg hne, if_true, List.nil_append]
      refine List.filter_congr ?_
      intro c _
      by_cases h : pick c <;> simp [h, hne, Ne.symm hne]
    rw [e2] at this
    exact this

theorem length_sent (dest : Nat → Nat) (r : Nat) (l : List Nat) (L : Nat → List Nat) (q : Nat) (hl : L r = l) : (sent dest r l L q).length ≤ (L q).length + l.length := by
  unfold sent
  by_cases e : q = r
  · rw [if_pos e]; have := List.length_filter_le (fun c => decide (dest c = r)) l; omega
  · rw [if_neg e, List.length_append]; have := List.length_filter_le (fun c => decide (dest c = q)) l; omega

/-- **C230 (K-means).** After a sweep every sample is in the cluster it is for, and in no other: no sample is lost, doubled or missed although the lists change under the loops. -/
theorem sweep_ok (dest : Nat → Nat) {roots : List Nat} (fuel : Nat) : ∀ (rs : List Nat) (m : Ptrs) (L : Nat → List Nat), Reps m roots L → (∀ r ∈ rs, r ∈ roots) → rs.Nodup →
    (∀ r ∈ roots, ∀ c ∈ L r, dest c ∈ roots) → ((roots.flatMap L).length < fuel) →
    ∃ m' L', sweep dest fuel rs m = some m' ∧ Reps m' roots L' ∧ (∀ c, (∃ r ∈ roots, c ∈ L' r) ↔ ∃ r ∈ roots, c ∈ L r) ∧
      (∀ r ∈ roots, (r ∈ rs ∨ ∀ c ∈ L r, dest c = r) → ∀ c ∈ L' r, dest c = r)
  | [], m, L, h, _, _, _, _ => ⟨m, L, rfl, h, fun _ => Iff.rfl, fun r hr hc c hm => by
      rcases hc with hc | hc
      · simp at hc
      · exact hc c hm⟩
  | r :: rs, m, L, h, hrs, hnd, hd, hf => by
    have hr := hrs r (List.mem_cons_self ..)
    have hlen : (L r).length < fuel := by
      refine lt_of_le_of_lt ?_ hf
      have := (List.Sublist.flatMap (List.singleton_sublist.2 hr) L).length_le
      simpa using this
    obtain ⟨m1, e1, h1⟩ := moveLoop_ok dest h hr (hd r hr) fuel hlen
    have hmem : ∀ c, (∃ q ∈ roots, c ∈ sent dest r (L r) L q) ↔ ∃ q ∈ roots, c ∈ L q := by
      intro c
      constructor
      · rintro ⟨q, hq, hc⟩
        unfold sent at hc
        by_cases e : q = r
        · rw [if_pos e] at hc; exact ⟨r, hr, (List.mem_filter.1 hc).1⟩
        · rw [if_neg e, List.mem_append] at hc
          rcases hc with hc | hc
          · exact ⟨q, hq, hc⟩
          · exact ⟨r, hr, (List.mem_filter.1 hc).1⟩
      · rintro ⟨q, hq, hc⟩
        by_cases e : q = r
        · subst e
          refine ⟨dest c, hd q hq c hc, ?_⟩
          unfold sent
          by_cases e2 : dest c = q
          · rw [if_pos e2]; exact List.mem_filter.2 ⟨hc, by simp [e2]⟩
          · rw [if_neg e2]; exact List.mem_append_right _ (List.mem_filter.2 ⟨hc, by simp⟩)
        · refine ⟨q, hq, ?_⟩
          unfold sent
          rw [if_neg e]
          exact List.mem_append_left _ hc
    have hd1 : ∀ q ∈ roots, ∀ c ∈ sent dest r (L r) L q, dest c ∈ roots := by
      intro q hq c hc
      obtain ⟨q', hq', hc'⟩ := (hmem c).1 ⟨q, hq, hc⟩
      exact hd q' hq' c hc'
    have hf1 : (roots.flatMap (sent dest r (L r) L)).length < fuel := by
      refine lt_of_le_of_lt ?_ hf
      have n1 : (roots.flatMap (sent dest r (L r) L)).Nodup := by
        have := h1.nodup
        refine List.nodup_flatMap.2 ⟨fun q hq => (List.nodup_cons.1 (self_nodup this hq)).2, ?_⟩
        refine (List.nodup_flatMap.1 this).2.imp ?_
        intro a b hab x hx hy
        exact hab (List.mem_cons_of_mem _ hx) (List.mem_cons_of_mem _ hy)
      refine (List.subperm_of_subset n1 ?_).length_le
      intro c hc
      obtain ⟨q, hq, hc⟩ := List.mem_flatMap.1 hc
      obtain ⟨q', hq', hc'⟩ := (hmem c).1 ⟨q, hq, hc⟩
      exact List.mem_flatMap.2 ⟨q', hq', hc'⟩
    obtain ⟨m2, L2, e2, h2, hm2, hs2⟩ := sweep_ok dest fuel rs m1 _ h1 (fun q hq => hrs q (List.mem_cons_of_mem _ hq)) (List.nodup_cons.1 hnd).2 hd1 hf1
    refine ⟨m2, L2, ?_, h2, fun c => (hm2 c).trans (hmem c), ?_⟩
    · unfold sweep; rw [e1]; exact e2
    · intro q hq hc
      refine hs2 q hq ?_
      by_cases e : q = r
      · right
        intro c hc'
        unfold sent at hc'
        rw [if_pos e] at hc'
        rw [e]
        simpa using (List.mem_filter.1 hc').2
      · rcases hc with hc | hc
        · rcases List.mem_cons.1 hc with hc | hc
          · exact absurd hc e
          · exact Or.inl hc
        · right
          intro c hc'
          unfold sent at hc'
          rw [if_neg e, List.mem_append] at hc'
          rcases hc' with hc' | hc'
          · exact hc c hc'
          · simpa using (List.mem_filter.1 hc').2

theorem purgeLoop_spec (old : Nat → Bool) {r : Nat} : ∀ (rest : List Nat) (m : Ptrs) (done : List Nat), Reps m [r] (fun _ => done ++ rest) →
    ∃ m', purgeLoop old r (rest.length + 1) m (rest.headD r) = some m' ∧ Reps m' [r] (fun _ => done ++ rest.filter fun c => !old c)
  | [], m, done, h => ⟨m, by simp [purgeLoop], by simpa using h⟩
  | c :: rest, m, done, h => by
    have hr : r ∈ [r] := by simp
    have hnd := self_nodup h.nodup hr
    have hcr : c ≠ r := by
      rintro rfl
      exact (List.nodup_cons.1 hnd).1 (by simp)
    rw [List.headD_cons, List.length_cons, purgeLoop_ne old _ _ hcr]
    by_cases ho : old c = true
    · rw [if_pos ho]
      obtain ⟨h1, _, _, en⟩ := purge_reps h hr (l1 := done) (l2 := rest) (c := c) rfl
      rw [en]
      have h1' : Reps (purge m c) [r] (fun _ => done ++ rest) := by
        refine ⟨?_, ?_⟩
        · intro q hq
          have := h1.linked q hq
          rw [List.mem_singleton.1 hq, set1_same] at this
          rw [List.mem_singleton.1 hq]
          exact this
        · have := h1.nodup
          simp only [List.flatMap_cons, List.flatMap_nil, set1_same] at this ⊢
          exact this
      obtain ⟨m', e, h'⟩ := purgeLoop_spec old rest _ done h1'
      refine ⟨m', e, ?_⟩
      simpa [List.filter_cons, ho] using h'
    · rw [if_neg ho]
      have hnx : m.nx c = rest.headD r := h.next hr (l1 := r :: done) (by simp)
      rw [hnx]
      obtain ⟨m', e, h'⟩ := purgeLoop_spec old rest m (done ++ [c]) (by simpa using h)
      refine ⟨m', e, ?_⟩
      simpa [List.filter_cons, ho] using h'

/-- **C230 (removal).** The edges that are too old, and no others, are removed, and each edge is looked at once; the others keep their order. -/
theorem purgeLoop_ok (old : Nat → Bool) {m : Ptrs} {r : Nat} {l : List Nat} (hl : Linked m (r :: l ++ [r])) (hn : (r :: l).Nodup) :
    ∃ m', purgeLoop old r (l.length + 1) m (m.nx r) = some m' ∧ Linked m' (r :: l.filter (fun c => !old c) ++ [r]) := by
  have h : Reps m [r] (fun _ => [] ++ l) := ⟨by intro q hq; rw [List.mem_singleton.1 hq]; exact hl, by simpa using hn⟩
  have hnx : m.nx r = l.headD r := h.next (by simp) (l1 := []) rfl
  rw [hnx]
  obtain ⟨m', e, h'⟩ := purgeLoop_spec old l m [] h
  exact ⟨m', e, by simpa using h'.linked r (by simp)⟩

/-- **C230 (simplification of a polyline).** All cells between two cells of a list are removed, and no others. -/
theorem purgeBetween_ok {r a b : Nat} : ∀ (mid : List Nat) {m : Ptrs} {l1 l2 : List Nat}, Linked m (r :: (l1 ++ a :: mid ++ b :: l2) ++ [r]) → (r :: (l1 ++ a :: mid ++ b :: l2)).Nodup →
    ∃ m', purgeBetween a b (mid.length + 1) m = some m' ∧ Linked m' (r :: (l1 ++ a :: b :: l2) ++ [r])
  | [], m, l1, l2, hl, hn => by
    have h : Reps m [r] (fun _ => l1 ++ a :: [] ++ b :: l2) := ⟨by intro q hq; rw [List.mem_singleton.1 hq]; exact hl, by simpa using hn⟩
    have hnx : m.nx a = b := h.next (r := r) (by simp) (l1 := r :: l1) (l2 := b :: l2) (by simp)
    refine ⟨m, by unfold purgeBetween; rw [if_pos hnx], by simpa using hl⟩
  | c :: mid, m, l1, l2, hl, hn => by
    have h : Reps m [r] (fun _ => l1 ++ a :: c :: mid ++ b :: l2) := ⟨by intro q hq; rw [List.mem_singleton.1 hq]; exact hl, by simpa using hn⟩
    have hnx : m.nx a = c := h.next (r := r) (by simp) (l1 := r :: l1) (l2 := c :: mid ++ b :: l2) (by simp)
    have hcb : c ≠ b := by
      rintro rfl
      have := (List.nodup_cons.1 hn).2
      simp [List.nodup_append] at this
    unfold purgeBetween
    rw [hnx, if_neg hcb]
    obtain ⟨h1, _, _, _⟩ := purge_reps h (r := r) (by simp) (l1 := l1 ++ [a]) (l2 := mid ++ b :: l2) (c := c) (by simp)
    refine purgeBetween_ok mid (l1 := l1) ?_ ?_
    · have := h1.linked r (by simp)
      rw [set1_same] at this
      simpa using this
    · have := self_nodup h1.nodup (r := r) (by simp)
      rw [set1_same] at this
      simpa using this

/-- **C230 (X-means).** A cluster is replaced, in its place, by the clusters it was divided into; the list they were in is empty afterwards. -/
theorem merge_ok {m : Ptrs} {r s vc : Nat} {l1 l2 sub : List Nat} (hl : Linked m (r :: (l1 ++ vc :: l2) ++ [r])) (hs : Linked m (s :: sub ++ [s])) (hsub : sub ≠ [])
    (hn : (r :: (l1 ++ vc :: l2) ++ s :: sub).Nodup) :
    Linked (merge m vc s) (r :: (l1 ++ sub ++ l2) ++ [r]) ∧ (merge m vc s).nx s = s ∧ (merge m vc s).pv s = s := by
  obtain ⟨A, p, n, B, hA, hB, ep, en, k1, k2⟩ := around hl
  obtain ⟨t, T, hT⟩ : ∃ t T, sub = t :: T := List.exists_cons_of_ne_nil hsub
  obtain ⟨H, h, hH⟩ : ∃ H h, sub = H ++ [h] := ⟨sub.dropLast, sub.getLast hsub, (List.dropLast_append_getLast hsub).symm⟩
  have hnt : m.nx s = t ∧ Linked m (sub ++ [s]) := by
    rw [hT] at hs ⊢
    exact ⟨hs.1, hs.2.2⟩
  have hph : m.pv s = h ∧ Linked m sub := by
    have := hnt.2
    rw [hH] at this ⊢
    have e : H ++ [h] ++ [s] = H ++ h :: s :: [] := by simp
    rw [e, linked_split] at this
    exact ⟨this.2.2.1, this.1⟩
  -- disjointness
  obtain ⟨hn1, hn2, hn3⟩ := List.nodup_append.1 hn
  have hsn := List.nodup_cons.1 hn2
  have hR : ∀ x ∈ r :: (l1 ++ vc :: l2), x ≠ s ∧ x ∉ sub := fun x hx => ⟨fun e => hn3 x hx s (List.mem_cons_self ..) e, fun h => hn3 x hx x (List.mem_cons_of_mem _ h) rfl⟩
  have hp : p ∈ r :: l1 := by rw [hA]; simp
  have hn' : n ∈ l2 ++ [r] := by rw [hB]; simp
  have hpR : p ∈ r :: (l1 ++ vc :: l2) := by simp only [List.mem_cons, List.mem_append] at hp ⊢; tauto
  have hnR : n ∈ r :: (l1 ++ vc :: l2) := by simp only [List.mem_cons, List.mem_append, List.not_mem_nil, or_false] at hn' ⊢; tauto
  have ht : t ∈ sub := by rw [hT]; simp
  have hh : h ∈ sub := by rw [hH]; simp
  have hnd1 := List.nodup_cons.1 hn1
  have hrl : r ∉ l1 ∧ r ∉ l2 := by
    have := hnd1.1
    simp only [List.mem_append, List.mem_cons, not_or] at this
    exact ⟨this.1, this.2.2⟩
  have hnd2 := List.nodup_append.1 hnd1.2
  have hl12 : ∀ x ∈ l1, x ∉ l2 := fun x h1 h2 => hnd2.2.2 x h1 x (List.mem_cons_of_mem _ h2) rfl
  have hl2 : l2.Nodup := (List.nodup_cons.1 hnd2.2.1).2
  -- the pointers after the merge
  have hm1 : (bind m p t).pv s = h := by
    simp only [bind]
    rw [set1_ne _ _ (Ne.symm (fun e : t = s => hsn.1 (e ▸ ht)))]
    exact hph.1
  have hmm : merge m vc s = bind (bind (bind m p t) h n) s s := by
    unfold merge init
    simp only [ep, en, hnt.1, hm1]
  have nxEq : ∀ x, x ≠ p → x ≠ h → x ≠ s → (merge m vc s).nx x = m.nx x := by
    intro x h1 h2 h3
    rw [hmm]
    simp only [bind]
    rw [set1_ne _ _ h3, set1_ne _ _ h2, set1_ne _ _ h1]
  have pvEq : ∀ x, x ≠ t → x ≠ n → x ≠ s → (merge m vc s).pv x = m.pv x := by
    intro x h1 h2 h3
    rw [hmm]
    simp only [bind]
    rw [set1_ne _ _ h3, set1_ne _ _ h2, set1_ne _ _ h1]
  have hps : p ≠ s := (hR p hpR).1
  have hns : n ≠ s := (hR n hnR).1
  have hts : t ≠ s := fun e => hsn.1 (e ▸ ht)
  have hhs : h ≠ s := fun e => hsn.1 (e ▸ hh)
  have hph' : p ≠ h := fun e => (hR p hpR).2 (e ▸ hh)
  have htn : t ≠ n := fun e => (hR n hnR).2 (e ▸ ht)
  have nxp : (merge m vc s).nx p = t := by rw [hmm]; simp only [bind]; rw [set1_ne _ _ hps, set1_ne _ _ hph', set1_same]
  have nxh : (merge m vc s).nx h = n := by rw [hmm]; simp only [bind]; rw [set1_ne _ _ hhs, set1_same]
  have pvt : (merge m vc s).pv t = p := by rw [hmm]; simp only [bind]; rw [set1_ne _ _ hts, set1_ne _ _ htn, set1_same]
  have pvn : (merge m vc s).pv n = h := by rw [hmm]; simp only [bind]; rw [set1_ne _ _ hns, set1_same]
  refine ⟨?_, by rw [hmm]; exact set1_same .., by rw [hmm]; exact set1_same ..⟩
  -- first part
  have L1 : Linked (merge m vc s) (A ++ [p]) := by
    refine k1.congr ?_ ?_
    · intro a ha
      rw [List.dropLast_concat] at ha
      have haR : a ∈ r :: l1 := by rw [hA]; exact List.mem_append_left _ ha
      have haR' : a ∈ r :: (l1 ++ vc :: l2) := by simp only [List.mem_cons, List.mem_append] at haR ⊢; tauto
      refine nxEq a ?_ (fun e => (hR a haR').2 (e ▸ hh)) (hR a haR').1
      rintro rfl
      have : (A ++ [a]).Nodup := hA ▸ List.nodup_cons.2 ⟨hrl.1, hnd2.1⟩
      exact (List.nodup_append.1 this).2.2 a ha a (by simp) rfl
    · intro a ha
      rw [← hA, List.tail_cons] at ha
      have haR' : a ∈ r :: (l1 ++ vc :: l2) := by simp only [List.mem_cons, List.mem_append]; tauto
      refine pvEq a (fun e => (hR a haR').2 (e ▸ ht)) ?_ (hR a haR').1
      rintro rfl
      simp only [List.mem_append, List.mem_singleton] at hn'
      rcases hn' with h | h
      · exact hl12 a ha h
      · exact hrl.1 (h ▸ ha)
  have L2 : Linked (merge m vc s) sub := by
    refine hph.2.congr ?_ ?_
    · intro a ha
      have ha' : a ∈ H := by rw [hH, List.dropLast_concat] at ha; exact ha
      have has : a ∈ sub := by rw [hH]; exact List.mem_append_left _ ha'
      refine nxEq a (fun e => (hR p hpR).2 (e ▸ has)) ?_ (fun e => hsn.1 (e ▸ has))
      rintro rfl
      have : (H ++ [a]).Nodup := hH ▸ hsn.2
      exact (List.nodup_append.1 this).2.2 a ha' a (by simp) rfl
    · intro a ha
      have ha' : a ∈ T := by rw [hT, List.tail_cons] at ha; exact ha
      have has : a ∈ sub := by rw [hT]; exact List.mem_cons_of_mem _ ha'
      refine pvEq a ?_ (fun e => (hR n hnR).2 (e ▸ has)) (fun e => hsn.1 (e ▸ has))
      rintro rfl
      have : (a :: T).Nodup := hT ▸ hsn.2
      exact (List.nodup_cons.1 this).1 ha'
  have L3 : Linked (merge m vc s) (n :: B) := by
    refine k2.congr ?_ ?_
    · intro a ha
      rw [← hB, List.dropLast_concat] at ha
      have haR' : a ∈ r :: (l1 ++ vc :: l2) := by simp only [List.mem_cons, List.mem_append]; tauto
      refine nxEq a ?_ (fun e => (hR a haR').2 (e ▸ hh)) (hR a haR').1
      rintro rfl
      simp only [List.mem_cons] at hp
      rcases hp with h | h
      · exact hrl.2 (h ▸ ha)
      · exact hl12 a h ha
    · intro a ha
      have haB : a ∈ l2 ++ [r] := by rw [hB]; exact List.mem_cons_of_mem _ ha
      have haR' : a ∈ r :: (l1 ++ vc :: l2) := by simp only [List.mem_cons, List.mem_append, List.not_mem_nil, or_false] at haB ⊢; tauto
      refine pvEq a (fun e => (hR a haR').2 (e ▸ ht)) ?_ (hR a haR').1
      rintro rfl
      have : (a :: B).Nodup := by
        rw [← hB]
        refine List.nodup_append.2 ⟨hl2, List.nodup_singleton _, ?_⟩
        intro x hx y hy e
        exact hrl.2 (by rw [List.mem_singleton] at hy; rw [← hy, ← e]; exact hx)
      exact (List.nodup_cons.1 this).1 ha
  -- join
  have e : r :: (l1 ++ sub ++ l2) ++ [r] = A ++ p :: t :: (T ++ n :: B) := by
    have : r :: (l1 ++ sub ++ l2) ++ [r] = (r :: l1) ++ (sub ++ (l2 ++ [r])) := by simp
    rw [this, hA, hB, hT]; simp
  rw [e, linked_split]
  refine ⟨L1, nxp, pvt, ?_⟩
  have e2 : t :: (T ++ n :: B) = H ++ h :: n :: B := by
    have : t :: (T ++ n :: B) = sub ++ n :: B := by rw [hT]; rfl
    rw [this, hH]; simp
  rw [e2, linked_split]
  exact ⟨hH ▸ L2, nxh, pvn, L3⟩

theorem zSeqJump_spec {m : Ptrs} {r : Nat} : ∀ (rl : List Nat) (post : List Nat) (k : Nat) (step : Int), Linked m (r :: (rl.reverse ++ post) ++ [r]) → r ∉ rl → rl ≠ [] ∨ post ≠ [] → rl.length < k →
    zSeqJump m r k (rl.headD r) step = some (if h : step.toNat < rl.length then rl[step.toNat] else m.nx r)
  | [], post, k, step, hl, hr, hne, hk => by
    obtain ⟨k, rfl⟩ : ∃ j, k = j + 1 := ⟨k - 1, by omega⟩
    simp [zSeqJump]
  | c :: rl, post, k, step, hl, hr, hne, hk => by
    obtain ⟨k, rfl⟩ : ∃ j, k = j + 1 := ⟨k - 1, by omega⟩
    have hcr : c ≠ r := fun e => hr (e ▸ List.mem_cons_self ..)
    rw [List.headD_cons, zSeqJump_ne _ _ _ hcr]
    by_cases hs : step ≤ 0
    · rw [if_pos hs]
      have : step.toNat = 0 := by omega
      simp [this]
    · rw [if_neg hs]
      have hpv : m.pv c = rl.headD r := by
        have e : r :: ((c :: rl).reverse ++ post) ++ [r] = r :: (rl.reverse ++ c :: post) ++ [r] := by simp
        rw [e] at hl
        obtain ⟨A, p, n, B, hA, hB, ep, en, k1, k2⟩ := around hl
        rw [ep]
        cases rl with
        | nil =>
          simp only [List.reverse_nil] at hA
          have : A ++ [p] = [r] := hA.symm
          cases A with
          | nil => simpa using this
          | cons x A => simp at this
        | cons x rl =>
          have : r :: (x :: rl).reverse = (r :: rl.reverse) ++ [x] := by simp
          rw [this] at hA
          have := (List.append_inj' hA rfl).2
          simpa using this.symm
      rw [hpv]
      rw [zSeqJump_spec rl (c :: post) k (step - 1) (by simpa using hl) (fun h => hr (List.mem_cons_of_mem _ h)) (Or.inr (by simp)) (by simp only [List.length_cons] at hk; omega)]
      congr 1
      have hst : step.toNat = (step - 1).toNat + 1 := by omega
      by_cases hlt : (step - 1).toNat < rl.length
      · rw [dif_pos hlt, dif_pos (by simp only [List.length_cons]; omega)]
        simp only [hst, List.getElem_cons_succ]
      · rw [dif_neg hlt, dif_neg (by simp only [List.length_cons]; omega)]

/-- **C230 (sequences).** The frame with the number `step`, counted from the head; a negative number gives the head and one that is too great the tail. -/
theorem zSeqJump_ok {m : Ptrs} {r : Nat} {l : List Nat} (hl : Linked m (r :: l ++ [r])) (hn : (r :: l).Nodup) (hne : l ≠ []) (step : Int) (k : Nat) (hk : l.length < k) :
    zSeqJump m r k (m.pv r) step = l.reverse[min step.toNat (l.length - 1)]? := by
  have hr : r ∉ l.reverse := by simpa using (List.nodup_cons.1 hn).1
  have hpv : m.pv r = l.reverse.headD r := by
    obtain ⟨H, h, hH⟩ : ∃ H h, l = H ++ [h] := ⟨l.dropLast, l.getLast hne, (List.dropLast_append_getLast hne).symm⟩
    rw [hH] at hl
    have e : r :: (H ++ [h]) ++ [r] = (r :: H) ++ h :: r :: [] := by simp
    rw [e, linked_split] at hl
    rw [hl.2.2.1]
    simp [hH]
  have hnx : m.nx r = l.head hne := by
    obtain ⟨t, T, hT⟩ := List.exists_cons_of_ne_nil hne
    subst hT
    exact hl.1
  rw [hpv, zSeqJump_spec l.reverse [] k step (by simpa using hl) hr (Or.inl (by simpa using hne)) (by simpa using hk)]
  have hpos : 0 < l.length := List.length_pos_iff.2 hne
  by_cases hs : step.toNat < l.reverse.length
  · rw [dif_pos hs]
    rw [List.length_reverse] at hs
    rw [Nat.min_eq_left (by omega), List.getElem?_eq_getElem (by simpa using hs)]
  · rw [dif_neg hs, hnx]
    rw [List.length_reverse] at hs
    rw [Nat.min_eq_right (by omega), List.getElem?_eq_getElem (by simp; omega)]
    congr 1
    rw [List.getElem_reverse]
    have : l.length - 1 - (l.length - 1) = 0 := by omega
    simp only [this]
    rw [List.head_eq_getElem]

theorem Reps.prev {m : Ptrs} {roots : List Nat} {L : Nat → List Nat} (h : Reps m roots L) {r : Nat} (hr : r ∈ roots) {l1 l2 : List Nat} {x : Nat} (hl : r :: L r = l1 ++ x :: l2) :
    m.pv (l2.headD r) = x := by
  have hk := h.linked r hr
  rw [hl] at hk
  cases l2 with
  | nil =>
    have : l1 ++ [x] ++ [r] = l1 ++ x :: r :: [] := by simp
    rw [this, linked_split] at hk
    exact hk.2.2.1
  | cons y l2 =>
    have : l1 ++ x :: y :: l2 ++ [r] = l1 ++ x :: y :: (l2 ++ [r]) := by simp
    rw [this, linked_split] at hk
    exact hk.2.2.1

theorem Reps.one {m : Ptrs} {r : Nat} {L : Nat → List Nat} (h : Reps m [r] L) : Reps m [r] (fun _ => L r) :=
  ⟨fun q hq => by rw [List.mem_singleton.1 hq]; exact h.linked r (by simp), by simpa using h.nodup⟩

theorem shortcutInner_spec (free : Nat → Nat → Bool) {r cp1 : Nat} {pre : List Nat} : ∀ (rest : List Nat) (x : Nat) (m : Ptrs) (k : Nat), Reps m [r] (fun _ => pre ++ cp1 :: x :: rest) →
    rest.length < k → ∃ m' x' rest', shortcutInner free r cp1 k m (rest.headD r) = some (m', rest'.headD r) ∧
      RRT.shortcutScan (fun a b => .ok (free a b)) cp1 x rest = .ok (x', rest') ∧ Reps m' [r] (fun _ => pre ++ cp1 :: x' :: rest') ∧ rest'.length ≤ rest.length
  | [], x, m, k, h, hk => by
    obtain ⟨k, rfl⟩ : ∃ j, k = j + 1 := ⟨k - 1, by omega⟩
    exact ⟨m, x, [], by simp [shortcutInner], rfl, h, le_refl _⟩
  | c :: rest, x, m, k, h, hk => by
    obtain ⟨k, rfl⟩ : ∃ j, k = j + 1 := ⟨k - 1, by omega⟩
    have hcr : c ≠ r := by
      rintro rfl
      exact (List.nodup_cons.1 (self_nodup h.nodup (r := c) (by simp))).1 (by simp)
    have hpv : m.pv c = x := h.prev (r := r) (by simp) (l1 := r :: (pre ++ [cp1])) (l2 := c :: rest) (by simp)
    by_cases hf : free cp1 c = true
    · obtain ⟨h1, _, _, _⟩ := purge_reps h (r := r) (by simp) (l1 := pre ++ [cp1]) (l2 := c :: rest) (c := x) (by simp)
      have h2 : Reps (purge m x) [r] (fun _ => pre ++ cp1 :: c :: rest) := by
        have := h1.one
        rw [set1_same] at this
        simpa using this
      have hnx : (purge m x).nx c = rest.headD r := h2.next (r := r) (by simp) (l1 := r :: (pre ++ [cp1])) (by simp)
      obtain ⟨m', x', rest', e1, e2, e3, e4⟩ := shortcutInner_spec free rest c _ k h2 (by simp only [List.length_cons] at hk; omega)
      refine ⟨m', x', rest', ?_, ?_, e3, by simp only [List.length_cons]; omega⟩
      · rw [List.headD_cons, shortcutInner, if_neg hcr, if_pos hf]
        simp only [hpv]
        rw [hnx]
        exact e1
      · rw [RRT.shortcutScan]
        simp only [hf]
        exact e2
    · refine ⟨m, x, c :: rest, ?_, ?_, h, le_refl _⟩
      · rw [List.headD_cons, shortcutInner, if_neg hcr, if_neg hf]
      · rw [RRT.shortcutScan]
        simp only [Bool.not_eq_true] at hf
        simp only [hf]

theorem shortcutOuter_spec {K : Type} [Field K] [LinearOrder K] [IsStrictOrderedRing K] (env : RRT.Env Nat K) (free : Nat → Nat → Bool) {r fuel : Nat} :
    ∀ (k : Nat) (rest pre : List Nat) (cp1 x : Nat) (m : Ptrs) (cost : K), Reps m [r] (fun _ => pre ++ cp1 :: x :: rest) → rest.length < fuel → rest.length < k →
    ∃ m' l' c', shortcutOuter free r fuel k m cp1 (rest.headD r) = some m' ∧ RRT.shortcutLoop env (fun a b => .ok (free a b)) k cp1 x rest cost = .ok (l', c') ∧
      Reps m' [r] (fun _ => pre ++ l')
  | 0, _, _, _, _, _, _, _, _, hk => absurd hk (by omega)
  | k + 1, [], pre, cp1, x, m, cost, h, _, hk => by
    refine ⟨m, [cp1, x], cost, ?_, rfl, h⟩
    rw [shortcutOuter, if_pos (Or.inr (by simp))]
  | k + 1, c :: rest, pre, cp1, x, m, cost, h, hf, hk => by
    have hnd := self_nodup h.nodup (r := r) (by simp)
    have hcr : c ≠ r := by
      rintro rfl
      exact (List.nodup_cons.1 hnd).1 (by simp)
    have hlast : cp1 ≠ m.pv r := by
      obtain ⟨H, z, hH⟩ : ∃ H z, x :: c :: rest = H ++ [z] := ⟨(x :: c :: rest).dropLast, (x :: c :: rest).getLast (by simp), (List.dropLast_append_getLast (by simp)).symm⟩
      have : m.pv r = z := h.prev (r := r) (by simp) (l1 := r :: (pre ++ cp1 :: H)) (l2 := []) (by rw [hH]; simp)
      rw [this]
      rintro rfl
      have hz : cp1 ∈ x :: c :: rest := by rw [hH]; simp
      have := (List.nodup_append.1 (List.nodup_cons.1 hnd).2).2.1
      exact (List.nodup_cons.1 this).1 hz
    obtain ⟨m1, x1, rest1, e1, e2, h1, hle⟩ := shortcutInner_spec free (c :: rest) x m fuel h hf
    have hpv : m1.pv (rest1.headD r) = x1 := h1.prev (r := r) (by simp) (l1 := r :: (pre ++ [cp1])) (l2 := rest1) (by simp)
    have hstep : shortcutOuter free r fuel (k + 1) m cp1 ((c :: rest).headD r) = shortcutOuter free r fuel k m1 x1 (m1.nx (rest1.headD r)) := by
      rw [shortcutOuter, if_neg (by rw [List.headD_cons]; tauto), e1]
      simp only [Option.bind_some, hpv]
    rw [hstep]
    cases rest1 with
    | nil =>
      refine ⟨m1, [cp1, x1], cost + env.dist cp1 x1, ?_, ?_, h1⟩
      · simp only [List.length_cons] at hk
        obtain ⟨k, rfl⟩ : ∃ j, k = j + 1 := ⟨k - 1, by omega⟩
        rw [shortcutOuter, if_pos (Or.inl (by simpa using hpv.symm))]
      · rw [RRT.shortcutLoop]
        simp only [e2]
    | cons c1 rest1 =>
      have hnx : m1.nx c1 = rest1.headD r := h1.next (r := r) (by simp) (l1 := r :: (pre ++ [cp1, x1])) (by simp)
      simp only [List.length_cons] at hle hf hk
      obtain ⟨m2, l2, c2, f1, f2, h2⟩ := shortcutOuter_spec env free (fuel := fuel) k rest1 (pre ++ [cp1]) x1 c1 m1 (cost + env.dist cp1 x1) (by simpa using h1) (by omega) (by omega)
      refine ⟨m2, cp1 :: l2, c2, ?_, ?_, by simpa using h2⟩
      · rw [List.headD_cons, hnx]; exact f1
      · rw [RRT.shortcutLoop]
        simp only [e2, f2]

/-- **C230 (shortcuts of paths).** The path left by the loops that unlink the cells before the one they are at is the one the model of random trees computes on lists. -/
theorem zRRTShortcutPath_refines {K : Type} [Field K] [LinearOrder K] [IsStrictOrderedRing K] (env : RRT.Env Nat K) (free : Nat → Nat → Bool) {m : Ptrs} {r a b c : Nat} {l : List Nat}
    (hl : Linked m (r :: (a :: b :: c :: l) ++ [r])) (hn : (r :: a :: b :: c :: l).Nodup) :
    ∃ m' l' cost, zRRTShortcutPath free r (l.length + 2) m = some m' ∧ RRT.shortcutLoop env (fun a b => .ok (free a b)) (l.length + 2) a b (c :: l) 0 = .ok (l', cost) ∧
      Linked m' (r :: l' ++ [r]) ∧ (r :: l').Nodup := by
  have h : Reps m [r] (fun _ => [] ++ a :: b :: c :: l) := ⟨fun q hq => by rw [List.mem_singleton.1 hq]; exact hl, by simpa using hn⟩
  obtain ⟨m', l', cost, e1, e2, h'⟩ := shortcutOuter_spec env free (fuel := l.length + 2) (l.length + 2) (c :: l) [] a b m 0 h (by simp only [List.length_cons]; omega) (by simp only [List.length_cons]; omega)
  refine ⟨m', l', cost, ?_, e2, by simpa using h'.linked r (by simp), by simpa using self_nodup h'.nodup (r := r) (by simp)⟩
  unfold zRRTShortcutPath
  have h1 : m.nx r = a := hl.1
  have h2 : m.nx a = b := hl.2.2.1
  have h3 : m.nx b = c := hl.2.2.2.2.1
  simp only [h1, h2, h3]
  exact e1

/-- Pointers of the list of the cells 11, 12, 13 with the root 10 and of the list of 21 with the root 20. -/
def exM : Ptrs := ⟨fun x => if x = 10 then 11 else if x = 11 then 12 else if x = 12 then 13 else if x = 13 then 10 else if x = 20 then 21 else 20,
  fun x => if x = 10 then 13 else if x = 11 then 10 else if x = 12 then 11 else if x = 13 then 12 else if x = 20 then 21 else 20⟩

example : Reps exM [10, 20] (fun r => if r = 10 then [11, 12, 13] else [21]) := ⟨by simp [Linked, exM], by decide⟩
-- cells that are neighbours, and all of them, may be moved
example : ((moveLoop (fun c => if c = 12 ∨ c = 13 then 20 else 10) 10 4 exM 11).map fun m => (m.nx 10, m.nx 11, m.nx 20, m.nx 21, m.nx 12, m.nx 13)) = some (11, 10, 21, 12, 13, 20) := by decide
example : ((moveLoop (fun _ => 20) 10 4 exM 11).map fun m => (m.nx 10, m.nx 20, m.nx 21, m.nx 11, m.nx 12, m.nx 13)) = some (10, 21, 11, 12, 13, 20) := by decide
example : ((purgeLoop (fun c => c != 12) 10 4 exM 11).map fun m => (m.nx 10, m.nx 12, m.pv 10)) = some (12, 10, 12) := by decide
example : (let m := merge exM 12 20; (m.nx 10, m.nx 11, m.nx 21, m.nx 13, m.nx 20)) = (11, 21, 13, 10, 20) := by decide
example : ((zRRTShortcutPath (fun _ _ => true) 10 4 exM).map fun m => (m.nx 10, m.nx 11, m.nx 13)) = some (11, 13, 10) := by decide
example : zSeqJump exM 10 4 (exM.pv 10) 1 = some 12 ∧ zSeqJump exM 10 4 (exM.pv 10) 9 = some 11 := by decide

end Zm.Links
