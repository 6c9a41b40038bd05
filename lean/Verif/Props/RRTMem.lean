import Verif.Model.RRTMem
import Mathlib.Tactic.Ring
import Mathlib.Tactic.Linarith
import Mathlib.Data.List.Basic

/-! # C226: memory of random trees -/

set_option linter.unusedSectionVars false

namespace Zm.RRTMem
open Zm

theorem alloc_live (avail : Nat → Bool) (l : Led) : (alloc avail l).2.live = l.live + if (alloc avail l).1 then 1 else 0 := by
  unfold alloc; dsimp only; split <;> simp

theorem free_live (l : Led) : (free l).live = l.live - 1 := rfl

theorem listDestroy_live : ∀ (n : Nat) (l : Led), (listDestroy n l).live = l.live - 2 * n
  | 0, l => by simp [listDestroy]
  | n+1, l => by rw [listDestroy, listDestroy_live n]; simp [free]; ring

theorem nearDestroy_live : ∀ (n : Nat) (l : Led), (nearDestroy n l).live = l.live - n
  | 0, l => by simp [nearDestroy]
  | n+1, l => by rw [nearDestroy, nearDestroy_live n]; simp [free]; ring

theorem cloneNode_live (avail : Nat → Bool) (n : Nat) (l : Led) :
    (cloneNode avail n l).2.2.live - 2 * (cloneNode avail n l).2.1 = l.live - 2 * n ∧ ((cloneNode avail n l).1 = true → (cloneNode avail n l).2.1 = n + 1) ∧
    ((cloneNode avail n l).1 = false → (cloneNode avail n l).2.1 = n) := by
  have h1 := alloc_live avail l
  have h2 := alloc_live avail (alloc avail l).2
  unfold cloneNode
  cases ha : (alloc avail l).1 with
  | false => rw [ha] at h1; simp at h1; simp [ha, h1]
  | true =>
    cases hb : (alloc avail (alloc avail l).2).1 with
    | false => rw [ha] at h1; rw [hb] at h2; simp at h1 h2; simp [ha, hb, free, h1, h2]
    | true => rw [ha] at h1; rw [hb] at h2; simp at h1 h2; simp [ha, hb, h1, h2]; ring

theorem extend_live (avail : Nat → Bool) (o : Out) (n : Nat) (l : Led) :
    (extend avail o n l).2.2.live - 2 * (extend avail o n l).2.1 = l.live - 2 * n ∧ n ≤ (extend avail o n l).2.1 := by
  have h1 := alloc_live avail l
  have h2 := alloc_live avail (alloc avail l).2
  unfold extend
  cases o with
  | nop => simp
  | trapped =>
    cases ha : (alloc avail l).1 with
    | false => rw [ha] at h1; simp at h1; simp [ha, h1]
    | true => rw [ha] at h1; simp at h1; simp [ha, h1, free]
  | add r =>
    cases ha : (alloc avail l).1 with
    | false => rw [ha] at h1; simp at h1; simp [ha, h1]
    | true =>
      cases hb : (alloc avail (alloc avail l).2).1 with
      | false => rw [ha] at h1; rw [hb] at h2; simp at h1 h2; simp [ha, hb, free, h1, h2]
      | true => rw [ha] at h1; rw [hb] at h2; simp at h1 h2; simp [ha, hb, h1, h2]; ring

theorem nearLoop_live (avail : Nat → Bool) : ∀ (near : List Bool) (k : Nat) (l : Led),
    (nearLoop avail near k l).2.2.live - (nearLoop avail near k l).2.1 = l.live - k := by
  intro near
  induction near with
  | nil => intro k l; simp [nearLoop]
  | cons ok near ih =>
    intro k l
    have h1 := alloc_live avail l
    have h2 := alloc_live avail (free (alloc avail l).2)
    unfold nearLoop
    cases ha : (alloc avail l).1 with
    | false => rw [ha] at h1; simp at h1; simp [ha, ih, h1]
    | true =>
      rw [ha] at h1; simp at h1
      cases ok with
      | false => simp [ha, ih, free_live, h1]
      | true =>
        cases hb : (alloc avail (free (alloc avail l).2)).1 with
        | false => rw [hb] at h2; simp [free_live, h1] at h2; simp [ha, hb, h2]
        | true => rw [hb] at h2; simp [free_live, h1] at h2; simp [ha, hb, ih, h2]

/-- Where memory is there the list of near nodes is made. -/
theorem nearLoop_true (avail : Nat → Bool) (ha : ∀ n, avail n = true) : ∀ (near : List Bool) (k : Nat) (l : Led), (nearLoop avail near k l).1 = true := by
  intro near
  induction near with
  | nil => intro k l; rfl
  | cons ok near ih =>
    intro k l
    unfold nearLoop
    cases ok <;> simp [alloc, ha, ih]

/-- The addition with rewiring: a node more, or none; `lost` vectors are neither in the tree nor released by the caller. -/
theorem addAndRewire_live (avail : Nat → Bool) (near : List Bool) (n : Nat) (l : Led) :
    (addAndRewire avail near n l).2.1 = n + 1 ∧ (addAndRewire avail near n l).1 = true ∧ (addAndRewire avail near n l).2.2.live = l.live + 1 ∨
    (addAndRewire avail near n l).2.1 = n ∧ (addAndRewire avail near n l).2.2.live = l.live := by
  have h0 := nearLoop_live avail near 0 l
  unfold addAndRewire
  generalize hA : nearLoop avail near 0 l = a at h0 ⊢
  obtain ⟨a1, a2, a3⟩ := a
  simp only at h0
  have h1 := alloc_live avail a3
  have h2 := alloc_live avail (alloc avail a3).2
  cases a1 with
  | false => right; simp [nearDestroy_live]; simp at h0; omega
  | true =>
    by_cases hk : a2 = 0
    · subst hk
      cases hb : (alloc avail a3).1 with
      | false => rw [hb] at h1; simp at h1 h0; right; simp [hb, nearDestroy, h1, h0]
      | true =>
        rw [hb] at h1; simp at h1 h0
        cases hc : (alloc avail (alloc avail a3).2).1 with
        | false => rw [hc] at h2; simp at h2; right; simp [hb, hc, nearDestroy_live, h2, h1, h0]
        | true => rw [hc] at h2; simp at h2; left; simp [hb, hc, nearDestroy_live, free_live, h2, h1, h0]
    · cases hb : (alloc avail a3).1 with
      | false => rw [hb] at h1; simp at h1 h0; right; simp [hk, hb, nearDestroy_live, h1]; omega
      | true => rw [hb] at h1; simp at h1 h0; left; simp [hk, hb, nearDestroy_live, free_live, h1]; omega

theorem addAndRewire_true (avail : Nat → Bool) (ha : ∀ n, avail n = true) (near : List Bool) (n : Nat) (l : Led) :
    (addAndRewire avail near n l).2.1 = n + 1 ∧ (addAndRewire avail near n l).1 = true ∧ (addAndRewire avail near n l).2.2.live = l.live + 1 := by
  have hT := nearLoop_true avail ha near 0 l
  rcases addAndRewire_live avail near n l with h | h
  · exact h
  · exfalso
    have h1 := h.1
    unfold addAndRewire at h1
    generalize hA : nearLoop avail near 0 l = a at h1 hT
    obtain ⟨a1, a2, a3⟩ := a
    simp only at hT
    subst hT
    by_cases hk : a2 = 0
    · subst hk; simp [alloc, ha] at h1
    · simp [hk, alloc, ha] at h1

theorem extendOpt_live (avail : Nat → Bool) (ha : ∀ n, avail n = true) (near : List Bool) (o : Out) (n : Nat) (l : Led) :
    (extendOpt avail near o n l).2.2.live - 2 * (extendOpt avail near o n l).2.1 = l.live - 2 * n := by
  unfold extendOpt
  cases o with
  | nop => simp
  | trapped => simp [alloc, ha, free]
  | add r =>
    have h := addAndRewire_true avail ha near n ⟨l.t + 1, l.live + 1⟩
    simp only [alloc, ha, Bool.not_true, Bool.false_eq_true, if_false, if_true, h.2.1, h.1, h.2.2]
    push_cast; ring

theorem findLoop_live (ext : List Bool → Out → Nat → Led → Ret × Nat × Led)
    (he : ∀ near o n l, (ext near o n l).2.2.live - 2 * (ext near o n l).2.1 = l.live - 2 * n) : ∀ (is : List (Out × List Bool × Bool)) (n : Nat) (l : Led),
    (findLoop ext is n l).2.2.live - 2 * (findLoop ext is n l).2.1 = l.live - 2 * n := by
  intro is
  induction is with
  | nil => intro n l; rfl
  | cons i is ih =>
    intro n l
    have h := he i.2.1 i.1 n l
    unfold findLoop
    dsimp only
    cases hr : (ext i.2.1 i.1 n l).1 with
    | allocError => simpa using h
    | trapped => simp only; rw [ih]; exact h
    | nop => simp only; split
             · exact h
             · rw [ih]; exact h
    | advanced => simp only; split
                  · exact h
                  · rw [ih]; exact h
    | reached => simp only; split
                 · exact h
                 · rw [ih]; exact h

theorem walk_live (avail : Nat → Bool) : ∀ (d p : Nat) (l : Led), (walk avail d p l).2.live - 2 * (walk avail d p l).1 = l.live - 2 * p ∧ (walk avail d p l).1 ≤ p + d := by
  intro d
  induction d with
  | zero => intro p l; exact ⟨rfl, le_refl _⟩
  | succ d ih =>
    intro p l
    have h1 := alloc_live avail l
    have h2 := alloc_live avail (alloc avail l).2
    unfold walk
    cases ha : (alloc avail l).1 with
    | false =>
      rw [ha] at h1; simp at h1
      have := ih p (alloc avail l).2
      simp only [ha, Bool.not_false, if_true]
      exact ⟨by rw [this.1, h1], by omega⟩
    | true =>
      rw [ha] at h1; simp at h1
      cases hb : (alloc avail (alloc avail l).2).1 with
      | false =>
        rw [hb] at h2; simp at h2
        have := ih p (free (alloc avail (alloc avail l).2).2)
        simp only [ha, hb, Bool.not_false, Bool.not_true, Bool.false_eq_true, if_true, if_false]
        exact ⟨by rw [this.1, free_live, h2, h1]; ring, by omega⟩
      | true =>
        rw [hb] at h2; simp at h2
        have := ih (p+1) (alloc avail (alloc avail l).2).2
        simp only [ha, hb, Bool.not_true, Bool.false_eq_true, if_false]
        exact ⟨by rw [this.1, h2, h1]; push_cast; ring, by omega⟩

/-- The blocks that are accounted for: those of the trees, and those of the paths handed over to the caller. -/
def weight (st : St) : Int := 2 * st.s + 2 * st.g + 2 * st.paths

theorem findPath_live (avail : Nat → Bool) (ext : List Bool → Out → Nat → Led → Ret × Nat × Led)
    (he : ∀ near o n l, (ext near o n l).2.2.live - 2 * (ext near o n l).2.1 = l.live - 2 * n) (is : List (Out × List Bool × Bool)) (d : Option Nat) (st : St) :
    (findPath avail ext is d st).2.l.live - weight (findPath avail ext is d st).2 = st.l.live - weight st := by
  have hc := cloneNode_live avail 0 (listDestroy st.s st.l)
  rw [listDestroy_live] at hc
  unfold findPath
  generalize cloneNode avail 0 (listDestroy st.s st.l) = c at hc ⊢
  obtain ⟨c1, c2, c3⟩ := c
  simp only at hc
  cases c1 with
  | false => simp [weight]; simp at hc; omega
  | true =>
    simp only [Bool.not_true, Bool.false_eq_true, if_false]
    have hv := alloc_live avail c3
    generalize alloc avail c3 = v at hv ⊢
    obtain ⟨v1, v2⟩ := v
    simp only at hv
    cases v1 with
    | false => simp [weight]; simp at hv hc; omega
    | true =>
      have hl := findLoop_live ext he is c2 v2
      simp only [Bool.not_true, Bool.false_eq_true, if_false]
      generalize findLoop ext is c2 v2 = r at hl ⊢
      obtain ⟨r1, r2, r3⟩ := r
      simp only at hl
      simp at hv
      cases d with
      | none => simp only [weight, free_live]; omega
      | some d =>
        have hw := (walk_live avail d 0 r3).1
        simp only [weight, free_live]
        push_cast
        omega

theorem extendGreedy_live (avail : Nat → Bool) : ∀ (os : List Out) (n : Nat) (l : Led) (r : Ret × Nat × Led), extendGreedy avail os n l = some r →
    r.2.2.live - 2 * r.2.1 = l.live - 2 * n := by
  intro os
  induction os with
  | nil => intro n l r h; simp [extendGreedy] at h
  | cons o os ih =>
    intro n l r h
    have he := (extend_live avail o n l).1
    unfold extendGreedy at h
    dsimp only at h
    split at h
    · rw [ih _ _ r h]; exact he
    · simp only [Option.some.injEq] at h; rw [← h]; exact he

theorem dualLoop_live (avail : Nat → Bool) : ∀ (is : List (Out × List Out)) (n1 n2 : Nat) (sw : Bool) (l : Led) (r : Bool × (Nat × Nat × Bool) × Led),
    dualLoop avail is n1 n2 sw l = some r → r.2.2.live - 2 * r.2.1.1 - 2 * r.2.1.2.1 = l.live - 2 * n1 - 2 * n2 := by
  intro is
  induction is with
  | nil => intro n1 n2 sw l r h; simp [dualLoop] at h; rw [← h]
  | cons i is ih =>
    intro n1 n2 sw l r h
    have he := (extend_live avail i.1 n1 l).1
    unfold dualLoop at h
    dsimp only at h
    split at h
    · simp only [Option.some.injEq] at h; rw [← h]; dsimp only; omega
    · rw [ih _ _ _ _ r h]; omega
    · split at h
      · simp at h
      · rename_i f hf
        have hg := extendGreedy_live avail _ _ _ f hf
        split at h
        · simp only [Option.some.injEq] at h; rw [← h]; dsimp only; omega
        · rw [ih _ _ _ _ r h]; omega

theorem findPathDual_live (avail : Nat → Bool) (is : List (Out × List Out)) (d : Option (Nat × Nat)) (st : St) (q : Bool × St) (hq : findPathDual avail is d st = some q) :
    q.2.l.live - weight q.2 = st.l.live - weight st := by
  have hc := cloneNode_live avail 0 (listDestroy st.g (listDestroy st.s st.l))
  rw [listDestroy_live, listDestroy_live] at hc
  unfold findPathDual at hq
  generalize cloneNode avail 0 (listDestroy st.g (listDestroy st.s st.l)) = c at hc hq
  obtain ⟨c1, c2, c3⟩ := c
  simp only at hc
  cases c1 with
  | false => simp at hq; rw [← hq]; simp [weight]; simp at hc; omega
  | true =>
    simp only [Bool.not_true, Bool.false_eq_true, if_false] at hq
    have hd := cloneNode_live avail 0 c3
    generalize cloneNode avail 0 c3 = e at hd hq
    obtain ⟨e1, e2, e3⟩ := e
    simp only at hd
    cases e1 with
    | false => simp at hq; rw [← hq]; simp [weight]; simp at hc hd; omega
    | true =>
      simp only [Bool.not_true, Bool.false_eq_true, if_false] at hq
      have hv := alloc_live avail e3
      generalize alloc avail e3 = v at hv hq
      obtain ⟨v1, v2⟩ := v
      simp only at hv
      cases v1 with
      | false => simp at hq; rw [← hq]; simp [weight]; simp at hv hc hd; omega
      | true =>
        simp only [Bool.not_true, Bool.false_eq_true, if_false, Option.map_eq_some_iff] at hq
        obtain ⟨r, hr, hq⟩ := hq
        have hl := dualLoop_live avail is c2 e2 false v2 r hr
        obtain ⟨r1, ⟨ra, rb, rs⟩, r3⟩ := r
        simp only at hl hq
        simp at hv
        cases d with
        | none =>
          simp only at hq
          rw [← hq]
          cases rs <;> simp only [weight, free_live, Bool.false_eq_true, if_true, if_false] <;> omega
        | some d =>
          have hw := (walk_live avail d.1 0 r3).1
          have hx := (walk_live avail d.2 (walk avail d.1 0 r3).1 (walk avail d.1 0 r3).2).1
          simp only at hq
          rw [← hq]
          cases rs <;> simp only [weight, free_live, Bool.false_eq_true, if_true, if_false] <;> push_cast <;> omega

theorem extendEscape_live (avail : Nat → Bool) (o : Option Bool) (n : Nat) (l : Led) :
    (extendEscape avail o n l).2.2.live - 2 * (extendEscape avail o n l).2.1 = l.live - 2 * n := by
  have h1 := alloc_live avail l
  have h2 := alloc_live avail (alloc avail l).2
  unfold extendEscape
  cases o with
  | none => rfl
  | some c =>
    cases ha : (alloc avail l).1 with
    | false => rw [ha] at h1; simp at h1; simp [ha, h1]
    | true =>
      cases hb : (alloc avail (alloc avail l).2).1 with
      | false => rw [ha] at h1; rw [hb] at h2; simp at h1 h2; simp [ha, hb, free, h1, h2]
      | true => rw [ha] at h1; rw [hb] at h2; simp at h1 h2; simp [ha, hb, h1, h2]; ring

theorem escapeLoop_live (avail : Nat → Bool) : ∀ (os : List (Option Bool)) (n : Nat) (l : Led),
    (escapeLoop avail os n l).2.2.live - 2 * (escapeLoop avail os n l).2.1 = l.live - 2 * n := by
  intro os
  induction os with
  | nil => intro n l; rfl
  | cons o os ih =>
    intro n l
    have h := extendEscape_live avail o n l
    unfold escapeLoop
    dsimp only
    split
    · exact h
    · exact h
    · rw [ih]; exact h

theorem escape_live (avail : Nat → Bool) (hit : Bool) (os : List (Option Bool)) (st : St) :
    (escape avail hit os st).2.l.live - weight (escape avail hit os st).2 = st.l.live - weight st := by
  have hc := cloneNode_live avail 0 (listDestroy st.s st.l)
  rw [listDestroy_live] at hc
  unfold escape
  cases hit with
  | false => rfl
  | true =>
    simp only [Bool.not_true, Bool.false_eq_true, if_false]
    generalize cloneNode avail 0 (listDestroy st.s st.l) = c at hc ⊢
    obtain ⟨c1, c2, c3⟩ := c
    simp only at hc
    cases c1 with
    | false => simp [weight]; simp at hc; omega
    | true =>
      simp only [Bool.not_true, Bool.false_eq_true, if_false]
      have hv := alloc_live avail c3
      generalize alloc avail c3 = v at hv ⊢
      obtain ⟨v1, v2⟩ := v
      simp only at hv
      cases v1 with
      | false => simp [weight]; simp at hv hc; omega
      | true =>
        have hl := escapeLoop_live avail os c2 v2
        simp only [Bool.not_true, Bool.false_eq_true, if_false]
        generalize escapeLoop avail os c2 v2 = r at hl ⊢
        obtain ⟨r1, r2, r3⟩ := r
        simp only at hl
        simp at hv
        simp only [weight, free_live]; omega

theorem shortcut_live (avail : Nat → Bool) (p k : Nat) (st : St) (hp : p ≤ st.paths) (hk : k + 2 ≤ p) :
    (shortcut avail p k st).2.l.live - weight (shortcut avail p k st).2 = st.l.live - weight st := by
  have hv := alloc_live avail st.l
  unfold shortcut
  split
  · rfl
  · generalize alloc avail st.l = v at hv ⊢
    obtain ⟨v1, v2⟩ := v
    simp only at hv
    cases v1 with
    | false => simp at hv; simp [weight, hv]
    | true =>
      simp at hv
      have : k ≤ st.paths := by omega
      simp only [Bool.not_true, Bool.false_eq_true, if_false, weight, free_live, listDestroy_live]
      push_cast [Nat.cast_sub this]
      omega

/-- The calls other than the search that rewires. -/
def Op.plain : Op → Prop
  | .opt _ _ => False
  | _ => True

theorem step_live (avail : Nat → Bool) (o : Op) (st : St) (q : Bool × St) (ho : o.plain ∨ ∀ n, avail n = true) (hq : step avail st o = some q) :
    q.2.l.live - weight q.2 = st.l.live - weight st := by
  cases o with
  | find is d => simp only [step, Option.some.injEq] at hq; rw [← hq]; exact findPath_live avail _ (fun near o n l => (extend_live avail o n l).1) is d st
  | opt is d =>
    simp only [step, Option.some.injEq] at hq; rw [← hq]
    exact findPath_live avail _ (fun near o n l => extendOpt_live avail (by rcases ho with ho | ho; exact ho.elim; exact ho) near o n l) is d st
  | dual is d => exact findPathDual_live avail is d st q hq
  | escape hit os => simp only [step, Option.some.injEq] at hq; rw [← hq]; exact escape_live avail hit os st
  | shortcut p k =>
    simp only [step] at hq
    split at hq
    · rename_i h
      simp only [Option.some.injEq] at hq; rw [← hq]; exact shortcut_live avail p k st h.1 h.2
    · simp only [Option.some.injEq] at hq; rw [← hq]

/-- **C226.** Whatever searches are made, whatever the functions of the user answer, and whatever allocations fail (for searches that rewire: if none fails), once the trees are destroyed the only
blocks that the calls have left are those of the paths that were handed over. -/
theorem zRRT_history_partial (avail : Nat → Bool) : ∀ (ops : List Op), (∀ o ∈ ops, o.plain ∨ ∀ n, avail n = true) → ∀ (st q : St), run avail ops st = some q →
    (destroy q).l.live - 2 * q.paths = (destroy st).l.live - 2 * st.paths := by
  intro ops
  induction ops with
  | nil => intro _ st q h; simp only [run, Option.some.injEq] at h; rw [h]
  | cons o ops ih =>
    intro ho st q h
    simp only [run, Option.bind_eq_some_iff] at h
    obtain ⟨r, hr, h⟩ := h
    have h1 := step_live avail o st r (ho o (by simp)) hr
    rw [ih (fun o h => ho o (by simp [h])) r.2 q h]
    simp only [destroy, listDestroy_live]
    simp only [weight] at h1
    omega

/-- **C226.** From the initialisation to the destruction of the trees: only the paths remain. -/
theorem zRRT_destroy_partial (avail : Nat → Bool) (ops : List Op) (ho : ∀ o ∈ ops, o.plain ∨ ∀ n, avail n = true) (q : St) (h : run avail ops {} = some q) :
    (destroy q).l.live = 2 * q.paths := by
  have := zRRT_history_partial avail ops ho {} q h
  simp [destroy, listDestroy] at this ⊢
  omega

/-- **C226, violated.** A search that rewires and finds no memory for its list of near nodes goes on as if the node had been added, and its vector is lost. -/
theorem zRRTFindPathOpt_leak_violated : ∃ (avail : Nat → Bool) (q : St), run avail [.opt [(.add false, [true], true)] none] {} = some q ∧
    (step avail {} (.opt [(.add false, [true], true)] none)).map (·.1) = some true ∧ q.paths = 0 ∧ q.s = 1 ∧ (destroy q).l.live = 1 :=
  ⟨fun n => n != 5, _, rfl, by decide +kernel, rfl, rfl, by decide +kernel⟩

/-- A search, one with two trees, and an escape; the trees are replaced by the next search, and two paths are handed over. -/
example : ∃ q, run (fun _ => true) [.find [(.add false, [], false), (.trapped, [], false), (.add true, [], true)] (some 3), .dual [(.add false, [.add false, .add true])] (some (2, 3)), .shortcut 3 1,
    .escape true [some false, none, some true]] {} = some q ∧ q.s = 3 ∧ q.g = 3 ∧ q.paths = 7 ∧ q.l.live = 26 ∧ (destroy q).l.live = 14 :=
  ⟨_, rfl, by decide +kernel, by decide +kernel, by decide +kernel, by decide +kernel, by decide +kernel⟩

/-- Memory runs out in the middle of a search. -/
example : ∃ q, run (fun n => n != 6) [.find [(.add false, [], false), (.add false, [], false), (.add true, [], true)] none] {} = some q ∧ q.s = 2 ∧ q.l.live = 4 ∧ (destroy q).l.live = 0 :=
  ⟨_, rfl, by decide +kernel, by decide +kernel, by decide +kernel⟩

end Zm.RRTMem
