import Verif.Model.SplinePrm

/-! # Parameters of B-splines in any history (C247) -/

set_option linter.unusedSectionVars false

namespace Zm.SplinePrm
open Zm

variable {K : Type*}

/-- specification: the value of a parameter -/
structure Val (K : Type*) where
  order : Nat := 0
  knots : Option (List K) := none
  slice : Nat := 0

/-- specification: parameters are values, each on its own; `t` allocations have been asked for -/
structure Spec (K : Type*) where
  t : Nat
  v : Nat → Val K

/-- specification: a call on values -/
def spec (avail : Nat → Bool) (z : K) (a : Spec K) : Op K → Ans K × Spec K
  | .alloc x order nc slice =>
    if avail a.t then (.done, ⟨a.t + 1, Function.update a.v x ⟨order, some (List.replicate (nc + order + 1) z), if slice = 0 then 32 else slice⟩⟩)
    else (.refused, ⟨a.t + 1, Function.update a.v x {}⟩)
  | .free x => (.done, { a with v := Function.update a.v x {} })
  | .copy x y =>
    if (a.v x).order = (a.v y).order ∧ ((a.v x).knots.getD []).length = ((a.v y).knots.getD []).length then (.done, { a with v := Function.update a.v y (a.v x) })
    else (.refused, a)
  | .clone x y =>
    match (a.v x).knots with
    | none => (.refused, a)
    | some _ => if avail a.t then (.done, ⟨a.t + 1, Function.update a.v y (a.v x)⟩) else (.refused, { a with t := a.t + 1 })
  | .set x i c => (.done, { a with v := Function.update a.v x { a.v x with knots := (a.v x).knots.map fun l => l.set i c } })
  | .get x i => (match ((a.v x).knots.getD [])[i]? with | some c => .val c | none => .refused, a)

/-- specification: what the client has to observe: nothing is allocated for or cloned to a parameter that holds knots, parameters of one order that are copied are different
and hold knots, knots that are read or written exist -/
def Fits (a : Spec K) : Op K → Prop
  | .alloc x _ _ _ => (a.v x).knots = none
  | .free _ => True
  | .copy x y => (a.v x).order = (a.v y).order → x ≠ y ∧ (a.v x).knots ≠ none ∧ (a.v y).knots ≠ none
  | .clone _ y => (a.v y).knots = none
  | .set x i _ => ∃ l, (a.v x).knots = some l ∧ i < l.length
  | .get x i => ∃ l, (a.v x).knots = some l ∧ i < l.length

/-- specification: a history on values -/
def runSpec (avail : Nat → Bool) (z : K) : List (Op K) → Spec K → List (Ans K) × Spec K
  | [], a => ([], a)
  | o :: os, a => ((spec avail z a o).1 :: (runSpec avail z os (spec avail z a o).2).1, (runSpec avail z os (spec avail z a o).2).2)

/-- specification: the client observes this at each call -/
def AllFit (avail : Nat → Bool) (z : K) : List (Op K) → Spec K → Prop
  | [], _ => True
  | o :: os, a => Fits a o ∧ AllFit avail z os (spec avail z a o).2

/-- The heap stands for the values: each parameter with knots owns a block of its own, and each block in use has an owner. -/
structure Agrees (s : St K) (a : Spec K) : Prop where
  time : a.t = s.t
  order : ∀ x, (a.v x).order = (s.v x).order
  slice : ∀ x, (a.v x).slice = (s.v x).slice
  knots : ∀ x, (a.v x).knots = (s.v x).knot.bind s.blk
  live : ∀ x b, (s.v x).knot = some b → s.blk b ≠ none
  own : ∀ x y b, (s.v x).knot = some b → (s.v y).knot = some b → x = y
  owned : ∀ b, s.blk b ≠ none → ∃ x, (s.v x).knot = some b
  fresh : ∀ b, s.next ≤ b → s.blk b = none

theorem put_same {α : Type*} (f : Nat → α) (i : Nat) (a : α) : put f i a i = a := if_pos rfl
theorem put_ne {α : Type*} (f : Nat → α) {i j : Nat} (a : α) (h : j ≠ i) : put f i a j = f j := if_neg h

theorem Agrees.knots_none {s : St K} {a : Spec K} (h : Agrees s a) (x : Nat) : (a.v x).knots = none ↔ (s.v x).knot = none := by
  rw [h.knots x]
  cases hk : (s.v x).knot with
  | none => simp
  | some b => simpa using h.live x b hk

theorem Agrees.block {s : St K} {a : Spec K} (h : Agrees s a) {x : Nat} {l : List K} (hl : (a.v x).knots = some l) :
    ∃ b, (s.v x).knot = some b ∧ s.blk b = some l := by
  rw [h.knots x] at hl
  cases hk : (s.v x).knot with
  | none => rw [hk] at hl; cases hl
  | some b => rw [hk] at hl; exact ⟨b, rfl, hl⟩

/-- a parameter without knots gets a new block -/
theorem Agrees.give {s : St K} {a : Spec K} (h : Agrees s a) (x order slice : Nat) (l : List K) (hx : (s.v x).knot = none) :
    Agrees { s with blk := put s.blk s.next (some l), next := s.next + 1, t := s.t + 1, v := put s.v x { order := order, knot := some s.next, slice := slice } }
      ⟨a.t + 1, Function.update a.v x ⟨order, some l, slice⟩⟩ := by
  have hne : ∀ y b, (s.v y).knot = some b → b ≠ s.next := fun y b hb e => h.live y b hb (h.fresh b (by omega))
  refine ⟨by show a.t + 1 = s.t + 1; rw [h.time], ?_, ?_, ?_, ?_, ?_, ?_, ?_⟩ <;> dsimp only
  · intro y
    by_cases e : y = x
    · subst e; rw [Function.update_self, put_same]
    · rw [Function.update_of_ne e, put_ne _ _ e]; exact h.order y
  · intro y
    by_cases e : y = x
    · subst e; rw [Function.update_self, put_same]
    · rw [Function.update_of_ne e, put_ne _ _ e]; exact h.slice y
  · intro y
    by_cases e : y = x
    · subst e; rw [Function.update_self, put_same]; exact (put_same _ _ _).symm
    · rw [Function.update_of_ne e, put_ne _ _ e, h.knots y]
      cases hk : (s.v y).knot with
      | none => rfl
      | some b => exact (put_ne _ _ (hne y b hk)).symm
  · intro y b hb
    by_cases e : b = s.next
    · subst e; rw [put_same]; simp
    · rw [put_ne _ _ e]
      by_cases e' : y = x
      · subst e'; rw [put_same] at hb; exact absurd (Option.some.inj hb).symm e
      · rw [put_ne _ _ e'] at hb; exact h.live y b hb
  · intro y w b hy hw
    by_cases ey : y = x <;> by_cases ew : w = x
    · rw [ey, ew]
    · subst ey; rw [put_same] at hy; rw [put_ne _ _ ew] at hw
      exact absurd (Option.some.inj hy).symm (hne w b hw)
    · subst ew; rw [put_same] at hw; rw [put_ne _ _ ey] at hy
      exact absurd (Option.some.inj hw).symm (hne y b hy)
    · rw [put_ne _ _ ey] at hy; rw [put_ne _ _ ew] at hw; exact h.own y w b hy hw
  · intro b hb
    by_cases e : b = s.next
    · exact ⟨x, by rw [put_same, e]⟩
    · rw [put_ne _ _ e] at hb
      obtain ⟨y, hy⟩ := h.owned b hb
      refine ⟨y, ?_⟩
      rw [put_ne _ _ (fun e => by rw [e, hx] at hy; cases hy)]; exact hy
  · intro b hb
    rw [put_ne _ _ (by omega)]; exact h.fresh b (by omega)

/-- the numbers of a parameter change, and it has the same knots as before -/
theorem Agrees.nums {s : St K} {a : Spec K} (h : Agrees s a) (x t order slice : Nat) (k : Option Nat) (hk : (s.v x).knot = k) :
    Agrees { s with t := t, v := put s.v x { order := order, knot := k, slice := slice } } ⟨t, Function.update a.v x ⟨order, (a.v x).knots, slice⟩⟩ := by
  have hv : ∀ y, (put s.v x ({ order := order, knot := k, slice := slice } : Prm) y).knot = (s.v y).knot := by
    intro y
    by_cases e : y = x
    · subst e; rw [put_same, hk]
    · rw [put_ne _ _ e]
  refine ⟨rfl, ?_, ?_, ?_, ?_, ?_, ?_, h.fresh⟩ <;> dsimp only
  · intro y
    by_cases e : y = x
    · subst e; rw [Function.update_self, put_same]
    · rw [Function.update_of_ne e, put_ne _ _ e]; exact h.order y
  · intro y
    by_cases e : y = x
    · subst e; rw [Function.update_self, put_same]
    · rw [Function.update_of_ne e, put_ne _ _ e]; exact h.slice y
  · intro y
    rw [hv, ← h.knots y]
    by_cases e : y = x
    · subst e; rw [Function.update_self]
    · rw [Function.update_of_ne e]
  · intro y b; rw [hv]; exact h.live y b
  · intro y w b; rw [hv, hv]; exact h.own y w b
  · intro b hb; obtain ⟨y, hy⟩ := h.owned b hb; exact ⟨y, by rw [hv]; exact hy⟩

/-- the knots of one parameter are written -/
theorem Agrees.write {s : St K} {a : Spec K} (h : Agrees s a) (x b : Nat) (l : List K) (hb : (s.v x).knot = some b) :
    Agrees { s with blk := put s.blk b (some l) } { a with v := Function.update a.v x { a.v x with knots := some l } } := by
  have hup : ∀ y, (Function.update a.v x { a.v x with knots := some l } y).order = (a.v y).order ∧ (Function.update a.v x { a.v x with knots := some l } y).slice = (a.v y).slice := by
    intro y
    by_cases e : y = x
    · subst e; rw [Function.update_self]; exact ⟨rfl, rfl⟩
    · rw [Function.update_of_ne e]; exact ⟨rfl, rfl⟩
  refine ⟨h.time, fun y => (hup y).1.trans (h.order y), fun y => (hup y).2.trans (h.slice y), ?_, ?_, h.own, ?_, ?_⟩ <;> dsimp only
  · intro y
    by_cases e : y = x
    · subst e; rw [Function.update_self, hb]; exact (put_same _ _ _).symm
    · rw [Function.update_of_ne e, h.knots y]
      cases hk : (s.v y).knot with
      | none => rfl
      | some c => exact (put_ne _ _ (fun e' => e (h.own y x b (by rw [hk, e']) hb))).symm
  · intro y c hc
    by_cases e : c = b
    · subst e; rw [put_same]; simp
    · rw [put_ne _ _ e]; exact h.live y c hc
  · intro c hc
    by_cases e : c = b
    · exact ⟨x, by rw [e]; exact hb⟩
    · rw [put_ne _ _ e] at hc; exact h.owned c hc
  · intro c hc
    rw [put_ne _ _ (fun e => h.live x b hb (by rw [← e]; exact h.fresh c hc))]; exact h.fresh c hc

/-- the knots of one parameter are released -/
theorem Agrees.drop {s : St K} {a : Spec K} (h : Agrees s a) (x b : Nat) (hb : (s.v x).knot = some b) :
    Agrees { s with blk := put s.blk b none, v := put s.v x {} } { a with v := Function.update a.v x {} } := by
  refine ⟨h.time, ?_, ?_, ?_, ?_, ?_, ?_, ?_⟩ <;> dsimp only
  · intro y
    by_cases e : y = x
    · subst e; rw [Function.update_self, put_same]
    · rw [Function.update_of_ne e, put_ne _ _ e]; exact h.order y
  · intro y
    by_cases e : y = x
    · subst e; rw [Function.update_self, put_same]
    · rw [Function.update_of_ne e, put_ne _ _ e]; exact h.slice y
  · intro y
    by_cases e : y = x
    · subst e; rw [Function.update_self, put_same]; rfl
    · rw [Function.update_of_ne e, put_ne _ _ e, h.knots y]
      cases hk : (s.v y).knot with
      | none => rfl
      | some c => exact (put_ne _ _ (fun e' => e (h.own y x b (by rw [hk, e']) hb))).symm
  · intro y c hc
    by_cases e : y = x
    · subst e; rw [put_same] at hc; cases hc
    · rw [put_ne _ _ e] at hc
      rw [put_ne _ _ (fun e' => e (h.own y x b (by rw [hc, e']) hb))]; exact h.live y c hc
  · intro y w c hy hw
    by_cases ey : y = x
    · subst ey; rw [put_same] at hy; cases hy
    · by_cases ew : w = x
      · subst ew; rw [put_same] at hw; cases hw
      · rw [put_ne _ _ ey] at hy; rw [put_ne _ _ ew] at hw; exact h.own y w c hy hw
  · intro c hc
    have e : c ≠ b := fun e => hc (by rw [e]; exact put_same _ _ _)
    rw [put_ne _ _ e] at hc
    obtain ⟨y, hy⟩ := h.owned c hc
    refine ⟨y, ?_⟩
    rw [put_ne _ _ (fun e' => e (by rw [e', hb] at hy; exact (Option.some.inj hy).symm))]; exact hy
  · intro c hc
    by_cases e : c = b
    · rw [e]; exact put_same _ _ _
    · rw [put_ne _ _ e]; exact h.fresh c hc

/-- One call that fits answers what the values say and keeps the agreement. -/
theorem step_spec (avail : Nat → Bool) (z : K) (s : St K) (a : Spec K) (h : Agrees s a) (o : Op K) (hf : Fits a o) :
    ∃ s', step avail z s o = .ok ((spec avail z a o).1, s') ∧ Agrees s' (spec avail z a o).2 := by
  have ht := h.time
  cases o with
  | alloc x order nc slice =>
    have hk : (s.v x).knot = none := (h.knots_none x).mp hf
    have hk' : (a.v x).knots = none := hf
    show ∃ s', SplinePrm.alloc avail z x order nc slice s = _ ∧ _
    by_cases hav : avail s.t = true
    · have es : spec avail z a (.alloc x order nc slice) =
          (.done, ⟨a.t + 1, Function.update a.v x ⟨order, some (List.replicate (nc + order + 1) z), if slice ≠ 0 then slice else 32⟩⟩) := by
        show (if avail a.t = true then _ else _) = _
        rw [if_pos (by rw [ht]; exact hav), ite_not]
      rw [es]
      have h0 := h.nums x s.t 0 0 none hk
      rw [hk'] at h0
      have h1 := h0.give x order (if slice ≠ 0 then slice else 32) (List.replicate (nc + order + 1) z) (by show (put s.v x _ x).knot = none; rw [put_same])
      dsimp only at h1
      rw [Function.update_idem, ← ht] at h1
      refine ⟨_, ?_, h1⟩
      unfold SplinePrm.alloc vecAlloc
      simp only [hav, if_true, ht]
    · have es : spec avail z a (.alloc x order nc slice) = (.refused, ⟨a.t + 1, Function.update a.v x {}⟩) := by
        show (if avail a.t = true then _ else _) = _
        rw [if_neg (by rw [ht]; exact hav)]
      rw [es]
      have h1 := h.nums x (a.t + 1) 0 0 none hk
      rw [hk'] at h1
      refine ⟨_, ?_, h1⟩
      unfold SplinePrm.alloc vecAlloc
      simp only [hav, ht]
      rfl
  | free x =>
    show ∃ s', SplinePrm.free x s = _ ∧ Agrees s' { a with v := Function.update a.v x {} }
    cases hk : (s.v x).knot with
    | none =>
      have h1 := h.nums x a.t 0 0 none hk
      rw [(h.knots_none x).mpr hk] at h1
      refine ⟨_, ?_, h1⟩
      unfold SplinePrm.free
      rw [hk, ht]; rfl
    | some b =>
      refine ⟨_, ?_, h.drop x b hk⟩
      unfold SplinePrm.free vecFree
      rw [hk]
      cases hb : s.blk b with
      | none => exact absurd hb (h.live x b hk)
      | some l => simp only [hb]; rfl
  | copy x y =>
    show ∃ s', SplinePrm.copy x y s = _ ∧ _
    by_cases ho : (a.v x).order = (a.v y).order
    · obtain ⟨hxy, hx, hy⟩ := hf ho
      have ho' : ¬ (s.v x).order ≠ (s.v y).order := by rw [← h.order, ← h.order]; exact not_not.mpr ho
      obtain ⟨l, hl⟩ := Option.ne_none_iff_exists'.mp hx
      obtain ⟨m, hm⟩ := Option.ne_none_iff_exists'.mp hy
      obtain ⟨b, hb, hbl⟩ := h.block hl
      obtain ⟨c, hc, hcm⟩ := h.block hm
      have hbc : b ≠ c := fun e => hxy (h.own x y b hb (by rw [hc, e]))
      by_cases hlen : l.length = m.length
      · have es : spec avail z a (.copy x y) = (.done, { a with v := Function.update a.v y (a.v x) }) := by
          show (if _ then _ else _) = _
          rw [if_pos ⟨ho, by rw [hl, hm]; exact hlen⟩]
        rw [es]
        have h1 := (h.write y c l hc).nums y a.t (s.v y).order (s.v x).slice (some c) hc
        dsimp only at h1
        rw [Function.update_idem, Function.update_self] at h1
        have e1 : a.v x = ⟨(s.v y).order, some l, (s.v x).slice⟩ := by
          rw [← h.order y, ← ho, ← h.slice x, ← hl]
        rw [← e1] at h1
        refine ⟨_, ?_, h1⟩
        unfold SplinePrm.copy vecRead
        rw [if_neg ho']
        simp only [hb, hc, hbl, hcm, Res.bind, hlen, Option.some.injEq, hbc, ne_eq, not_true, if_false, ht]
      · have es : spec avail z a (.copy x y) = (.refused, a) := by
          show (if _ then _ else _) = _
          rw [if_neg (by rw [hl, hm]; exact fun e => hlen e.2)]
        rw [es]
        refine ⟨s, ?_, h⟩
        unfold SplinePrm.copy vecRead
        rw [if_neg ho']
        simp only [hb, hc, hbl, hcm, Res.bind, hlen, ne_eq, not_false_eq_true, if_true]
    · have es : spec avail z a (.copy x y) = (.refused, a) := by
        show (if _ then _ else _) = _
        rw [if_neg (fun e => ho e.1)]
      rw [es]
      refine ⟨s, ?_, h⟩
      unfold SplinePrm.copy
      rw [if_pos (by rw [← h.order, ← h.order]; exact ho)]
  | clone x y =>
    show ∃ s', SplinePrm.clone avail x y s = _ ∧ _
    have hy : (s.v y).knot = none := (h.knots_none y).mp hf
    have hself : ∀ t, Agrees { s with t := t, v := put s.v y { s.v y with knot := none } } { a with t := t } := by
      intro t
      have h1 := h.nums y t (s.v y).order (s.v y).slice none hy
      have e : (⟨(s.v y).order, (a.v y).knots, (s.v y).slice⟩ : Val K) = a.v y := by rw [← h.order, ← h.slice]
      rw [e, Function.update_eq_self] at h1
      exact h1
    cases hk : (s.v x).knot with
    | none =>
      have e : (a.v x).knots = none := (h.knots_none x).mpr hk
      have es : spec avail z a (.clone x y) = (.refused, a) := by
        unfold spec; simp only [e]
      rw [es]
      refine ⟨_, ?_, hself a.t⟩
      unfold SplinePrm.clone
      simp only [hk, ht]
    | some b =>
      cases hbl : s.blk b with
      | none => exact absurd hbl (h.live x b hk)
      | some l =>
        have e : (a.v x).knots = some l := by rw [h.knots x, hk]; exact hbl
        by_cases hav : avail s.t = true
        · have es : spec avail z a (.clone x y) = (.done, ⟨a.t + 1, Function.update a.v y (a.v x)⟩) := by
            unfold spec; simp only [e, ht, hav, if_true]
          rw [es]
          have h1 := h.give y (s.v x).order (s.v x).slice l hy
          have e1 : a.v x = ⟨(s.v x).order, some l, (s.v x).slice⟩ := by rw [← h.order x, ← h.slice x, ← e]
          rw [← e1] at h1
          refine ⟨_, ?_, h1⟩
          unfold SplinePrm.clone vecRead vecAlloc
          simp only [hk, hbl, Res.bind, hav, if_true]
        · have es : spec avail z a (.clone x y) = (.refused, { a with t := a.t + 1 }) := by
            unfold spec; simp only [e, ht, hav]; rfl
          rw [es]
          refine ⟨_, ?_, hself (a.t + 1)⟩
          unfold SplinePrm.clone vecRead vecAlloc
          simp only [hk, hbl, Res.bind, hav, ht]
          rfl
  | set x i c =>
    show ∃ s', setKnot x i c s = _ ∧ _
    obtain ⟨l, hl, hi⟩ := hf
    obtain ⟨b, hb, hbl⟩ := h.block hl
    have es : spec avail z a (.set x i c) = (.done, { a with v := Function.update a.v x { a.v x with knots := some (l.set i c) } }) := by
      unfold spec; simp only [hl, Option.map_some]
    rw [es]
    refine ⟨_, ?_, h.write x b (l.set i c) hb⟩
    unfold setKnot vecRead
    simp only [hb, hbl, Res.bind, Nat.not_le.mpr hi, if_false]
  | get x i =>
    show ∃ s', getKnot x i s = _ ∧ _
    obtain ⟨l, hl, hi⟩ := hf
    obtain ⟨b, hb, hbl⟩ := h.block hl
    have es : spec avail z a (.get x i) = (.val l[i], a) := by
      unfold spec; simp only [hl, Option.getD_some, List.getElem?_eq_getElem hi]
    rw [es]
    refine ⟨s, ?_, h⟩
    unfold getKnot vecRead
    simp only [hb, hbl, Res.bind, List.getElem?_eq_getElem hi]

theorem agrees_init : Agrees (K := K) ⟨fun _ => none, 0, 0, fun _ => {}⟩ ⟨0, fun _ => {}⟩ :=
  ⟨rfl, fun _ => rfl, fun _ => rfl, fun _ => rfl, fun _ _ h => (by cases h), fun _ _ _ h => (by cases h), fun _ h => absurd rfl h, fun _ _ => rfl⟩

/-- **C247.** In any history in which the client does not allocate or clone over knots and does not leave the knots, whichever allocations fail: nothing undefined happens, all
answers are those of parameters that are values on their own (so that writing one never changes another, and a copy or clone is equal to its source), and each block in use belongs to
exactly one parameter; after all parameters have been released no block is left. -/
theorem param_history_partial (avail : Nat → Bool) (z : K) (os : List (Op K)) (hf : AllFit avail z os ⟨0, fun _ => {}⟩) :
    ∃ s, run avail z os ⟨fun _ => none, 0, 0, fun _ => {}⟩ = .ok ((runSpec avail z os ⟨0, fun _ => {}⟩).1, s) ∧
      Agrees s (runSpec avail z os ⟨0, fun _ => {}⟩).2 ∧
      ((∀ x, ((runSpec avail z os ⟨0, fun _ => {}⟩).2.v x).knots = none) → ∀ b, s.blk b = none) := by
  have key : ∀ (os : List (Op K)) (s : St K) (a : Spec K), Agrees s a → AllFit avail z os a →
      ∃ s', run avail z os s = .ok ((runSpec avail z os a).1, s') ∧ Agrees s' (runSpec avail z os a).2 := by
    intro os
    induction os with
    | nil => intro s a h _; exact ⟨s, rfl, h⟩
    | cons o os ih =>
      intro s a h ⟨h1, h2⟩
      obtain ⟨s1, e1, g1⟩ := step_spec avail z s a h o h1
      obtain ⟨s2, e2, g2⟩ := ih s1 _ g1 h2
      refine ⟨s2, ?_, g2⟩
      unfold run
      rw [e1]
      show (run avail z os s1).bind _ = _
      rw [e2]
      rfl
  obtain ⟨s, e, g⟩ := key os _ _ agrees_init hf
  refine ⟨s, e, g, fun h b => ?_⟩
  by_contra hb
  obtain ⟨x, hx⟩ := g.owned b hb
  rw [(g.knots_none x).mp (h x)] at hx
  cases hx

/-- **C247, violated.** A clone over a parameter that holds knots loses them: after all parameters have been released a block is left; and a copy between two parameters just initialised reads a null pointer. -/
theorem param_violated :
    (∃ r s, run (fun _ => true) (0 : Int) [.alloc 0 1 2 0, .alloc 1 1 2 0, .clone 0 1, .free 0, .free 1] ⟨fun _ => none, 0, 0, fun _ => {}⟩ = .ok (r, s) ∧ (∀ x, (s.v x).knot = none) ∧ s.blk 1 ≠ none) ∧
    run (fun _ => true) (0 : Int) [.copy 0 1] ⟨fun _ => none, 0, 0, fun _ => {}⟩ = .ub := by
  refine ⟨⟨_, _, rfl, fun x => ?_, ?_⟩, rfl⟩
  · by_cases h1 : x = 1
    · subst h1; rfl
    · by_cases h0 : x = 0
      · subst h0; rfl
      · simp [put, h0, h1]
  · simp [put]

/-- a history that fits: a spline, its clone, a knot of the clone changed, copied back -/
example : AllFit (fun _ => true) (0 : Int) [.alloc 0 1 2 0, .clone 0 1, .set 1 2 7, .get 0 2, .copy 1 0, .get 0 2, .free 0, .free 1] ⟨0, fun _ => {}⟩ := by
  simp [AllFit, Fits, spec, Function.update]

end Zm.SplinePrm
