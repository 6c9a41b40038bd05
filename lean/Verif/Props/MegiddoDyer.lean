import Verif.Model.MegiddoDyer
import Mathlib.Algebra.Order.Ring.Rat
import Mathlib.Tactic.Linarith
import Mathlib.Tactic.FieldSimp
import Mathlib.Tactic.Ring
import Mathlib.Tactic.LinearCombination
import Mathlib.Data.List.Perm.Basic

/-!
# Linear programs of two variables: what the two solvers find

Specification: `Sat cs x1 x2` (the point satisfies the constraints of the user), `Optimal`.
-/

set_option linter.unusedSectionVars false

namespace Zm.MD
open Zm
variable {K : Type*} [Field K] [LinearOrder K] [IsStrictOrderedRing K]

/-- The point satisfies every constraint a1 x1 + a2 x2 ≤ b. -/
def Sat (cs : List (K × K × K)) (x1 x2 : K) : Prop := ∀ c ∈ cs, c.1 * x1 + c.2.1 * x2 ≤ c.2.2

/-- The point satisfies the constraints and no point that does has a smaller cost. -/
def Optimal (c1 c2 : K) (cs : List (K × K × K)) (x1 x2 : K) : Prop :=
  Sat cs x1 x2 ∧ ∀ z1 z2, Sat cs z1 z2 → c1 * x1 + c2 * x2 ≤ c1 * z1 + c2 * z2

/-! ## Extended numbers -/

@[simp] theorem fin_le {a b : K} : fin a ≤ fin b ↔ a ≤ b := by simp [fin]
@[simp] theorem fin_lt {a b : K} : fin a < fin b ↔ a < b := by simp [fin]
@[simp] theorem fin_inj {a b : K} : fin a = fin b ↔ a = b := by simp [fin]
@[simp] theorem bot_lt_fin (a : K) : (⊥ : Ext K) < fin a := by simp [fin, WithBot.bot_lt_coe]
@[simp] theorem fin_lt_top (a : K) : fin a < (⊤ : Ext K) := by
  show ((a : WithTop K) : WithBot (WithTop K)) < ((⊤ : WithTop K) : WithBot (WithTop K))
  exact WithBot.coe_lt_coe.mpr (WithTop.coe_lt_top a)

@[simp] theorem real?_fin (a : K) : real? (fin a) = some a := rfl
@[simp] theorem real?_bot : real? (⊥ : Ext K) = none := rfl
@[simp] theorem real?_top : real? (⊤ : Ext K) = none := rfl

theorem ext_cases (e : Ext K) : e = ⊥ ∨ e = ⊤ ∨ ∃ a, e = fin a := by
  rcases e with _ | e
  · exact Or.inl rfl
  · rcases e with _ | a
    · exact Or.inr (Or.inl rfl)
    · exact Or.inr (Or.inr ⟨a, rfl⟩)

theorem real?_some {e : Ext K} {a : K} (h : real? e = some a) : e = fin a := by
  rcases ext_cases e with h' | h' | ⟨b, h'⟩ <;> subst h'
  · cases h
  · cases h
  · rw [real?_fin] at h; cases h; rfl

@[simp] theorem shift_zero (e : Ext K) : shift e 0 = e := by
  rcases ext_cases e with h | h | ⟨b, h⟩ <;> subst h
  · rfl
  · rfl
  · show fin (b + 0) = fin b
    rw [add_zero]

/-! ## The two envelopes -/

theorem foldl_min_le {α : Type*} (f : α → Ext K) (e : Ext K) : ∀ (l : List α) (v : Ext K),
    e ≤ l.foldl (fun v c => if f c < v then f c else v) v ↔ e ≤ v ∧ ∀ c ∈ l, e ≤ f c
  | [], v => by simp
  | a :: l, v => by
    rw [List.foldl_cons, foldl_min_le f e l]
    by_cases h : f a < v
    · rw [if_pos h]
      simp only [List.mem_cons, forall_eq_or_imp]
      exact ⟨fun ⟨h1, h2⟩ => ⟨le_trans h1 h.le, h1, h2⟩, fun ⟨_, h1, h2⟩ => ⟨h1, h2⟩⟩
    · rw [if_neg h]
      simp only [List.mem_cons, forall_eq_or_imp]
      exact ⟨fun ⟨h1, h2⟩ => ⟨h1, le_trans h1 (not_lt.mp h), h2⟩, fun ⟨h1, _, h2⟩ => ⟨h1, h2⟩⟩

theorem foldl_max_le {α : Type*} (f : α → Ext K) (e : Ext K) : ∀ (l : List α) (v : Ext K),
    l.foldl (fun v c => if f c > v then f c else v) v ≤ e ↔ v ≤ e ∧ ∀ c ∈ l, f c ≤ e
  | [], v => by simp
  | a :: l, v => by
    rw [List.foldl_cons, foldl_max_le f e l]
    by_cases h : f a > v
    · rw [if_pos h]
      simp only [List.mem_cons, forall_eq_or_imp]
      exact ⟨fun ⟨h1, h2⟩ => ⟨le_trans (le_of_lt h) h1, h1, h2⟩, fun ⟨_, h1, h2⟩ => ⟨h1, h2⟩⟩
    · rw [if_neg h]
      simp only [List.mem_cons, forall_eq_or_imp]
      exact ⟨fun ⟨h1, h2⟩ => ⟨h1, le_trans (not_lt.mp h) h1, h2⟩, fun ⟨h1, _, h2⟩ => ⟨h1, h2⟩⟩

theorem foldl_max_mem {α : Type*} (f : α → Ext K) : ∀ (l : List α) (v : Ext K),
    l.foldl (fun v c => if f c > v then f c else v) v = v ∨ ∃ c ∈ l, l.foldl (fun v c => if f c > v then f c else v) v = f c
  | [], v => Or.inl rfl
  | a :: l, v => by
    rw [List.foldl_cons]
    rcases foldl_max_mem f l (if f a > v then f a else v) with h | ⟨c, hc, h⟩
    · rw [h]
      by_cases h' : f a > v
      · rw [if_pos h']; exact Or.inr ⟨a, List.mem_cons_self, rfl⟩
      · rw [if_neg h']; exact Or.inl rfl
    · exact Or.inr ⟨c, List.mem_cons_of_mem _ hc, h⟩

theorem le_upperVal (l : List (Cell K)) (x : K) (e : Ext K) : e ≤ upperVal l x ↔ ∀ c ∈ l, e ≤ fin (val c x) := by
  unfold upperVal
  rw [foldl_min_le (fun c => fin (val c x))]
  simp

theorem lowerVal_le (l : List (Cell K)) (x : K) (e : Ext K) : lowerVal l x ≤ e ↔ ∀ c ∈ l, fin (val c x) ≤ e := by
  unfold lowerVal
  rw [foldl_max_le (fun c => fin (val c x))]
  simp

theorem lowerVal_ne_top (l : List (Cell K)) (x : K) : lowerVal l x ≠ ⊤ := by
  rcases foldl_max_mem (fun c => fin (val c x)) l.reverse ⊥ with h | ⟨c, _, h⟩
  · exact fun h' => absurd (h.symm.trans h') (by simp)
  · exact fun h' => absurd (h.symm.trans h') (ne_of_lt (fin_lt_top _))

theorem lowerVal_mem (l : List (Cell K)) (x : K) (h : l ≠ []) : ∃ c ∈ l, lowerVal l x = fin (val c x) := by
  rcases foldl_max_mem (fun c => fin (val c x)) l.reverse ⊥ with h' | ⟨c, hc, h'⟩
  · obtain ⟨a, ha⟩ := List.exists_mem_of_ne_nil l h
    have : fin (val a x) ≤ (⊥ : Ext K) := ((lowerVal_le l x ⊥).mp (le_of_eq h')) a ha
    exact absurd (lt_of_lt_of_le (bot_lt_fin _) this) (lt_irrefl _)
  · exact ⟨c, by simpa using hc, h'⟩

/-! ## Feasible points of a list of lines -/

/-- Below the lines of `U` and above those of `L`. -/
def Feas (U L : List (Cell K)) (x y : K) : Prop := (∀ u ∈ U, y ≤ val u x) ∧ ∀ l ∈ L, val l x ≤ y

/-- In the region of the first variable. -/
def InR (p : Prob K) (x : K) : Prop := p.xmin ≤ fin x ∧ fin x ≤ p.xmax

theorem feasible_zero (p : Prob K) (x y : K) : feasible 0 p x (fin y) = true ↔ InR p x ∧ Feas p.upper p.lower x y := by
  unfold feasible InR Feas
  simp only [neg_zero, shift_zero, Bool.and_eq_true, decide_eq_true_eq, le_upperVal, lowerVal_le, fin_le]
  tauto

theorem inter_zero {a b : Cell K} (h : a.m ≠ b.m) {e : K} (he : val a e = val b e) : inter 0 a b = some (e, val a e) := by
  have hd : a.m - b.m ≠ 0 := sub_ne_zero.mpr h
  unfold inter
  rw [if_neg (by rw [not_le]; exact abs_pos.mpr hd)]
  unfold val at he ⊢
  congr 1
  refine Prod.ext ?_ ?_
  · show -(a.y0 - b.y0) / (a.m - b.m) = e
    rw [div_eq_iff hd]; linear_combination -he
  · show (a.m * b.y0 - b.m * a.y0) / (a.m - b.m) = a.m * e + a.y0
    rw [div_eq_iff hd]; linear_combination (-a.m) * he

theorem inter_spec {tol : K} (htol : 0 ≤ tol) {a b : Cell K} {x y : K} (h : inter tol a b = some (x, y)) :
    a.m ≠ b.m ∧ val a x = y ∧ val b x = y := by
  unfold inter at h
  by_cases h' : |a.m - b.m| ≤ tol
  · rw [if_pos h'] at h; cases h
  · rw [if_neg h'] at h
    have hd : a.m - b.m ≠ 0 := by
      intro h0; rw [h0, abs_zero] at h'; exact h' htol
    simp only [Option.some.injEq, Prod.mk.injEq] at h
    obtain ⟨hx, hy⟩ := h
    refine ⟨sub_ne_zero.mp hd, ?_, ?_⟩
    · rw [← hx, ← hy]; unfold val; field_simp; ring
    · rw [← hx, ← hy]; unfold val; field_simp; ring

theorem exists_min_list : ∀ (l : List K), l ≠ [] → ∃ a ∈ l, ∀ b ∈ l, a ≤ b
  | [], h => absurd rfl h
  | [a], _ => ⟨a, by simp, by simp⟩
  | a :: b :: l, _ => by
    obtain ⟨c, hc, hmin⟩ := exists_min_list (b :: l) (by simp)
    rcases le_total a c with h | h
    · exact ⟨a, by simp, fun d hd => by
        rcases List.mem_cons.mp hd with hd | hd
        · exact hd ▸ le_rfl
        · exact le_trans h (hmin d hd)⟩
    · exact ⟨c, List.mem_cons_of_mem _ hc, fun d hd => by
        rcases List.mem_cons.mp hd with hd | hd
        · exact hd ▸ h
        · exact hmin d hd⟩

/-- The abscissa at which two lines of different slopes meet. -/
def ix (a b : Cell K) : K := (a.y0 - b.y0) / (b.m - a.m)

theorem val_ix (a b : Cell K) (h : b.m - a.m ≠ 0) (x : K) : val b x - val a x = (b.m - a.m) * (x - ix a b) := by
  unfold val ix; field_simp; ring

theorem val_sub (c : Cell K) (x z : K) : val c x - val c z = c.m * (x - z) := by unfold val; ring

/-- Following an active lower line that does not go up to the right, a corner is met before the line leaves the feasible points. -/
theorem go_right (U L : List (Cell K)) (hi : Option K) (l : Cell K) (hl : l ∈ L) (x0 : K) (hL : ∀ c ∈ L, val c x0 ≤ val l x0)
    (hU : ∀ u ∈ U, val l x0 ≤ val u x0) (hhi : ∀ h, hi = some h → x0 ≤ h) (hm : l.m ≤ 0)
    (hev : (∃ c ∈ L, l.m < c.m) ∨ hi.isSome ∨ ∃ u ∈ U, u.m < l.m) :
    ∃ e, x0 ≤ e ∧ (∀ h, hi = some h → e ≤ h) ∧ Feas U L e (val l e) ∧ val l e ≤ val l x0 ∧
      ((∃ c ∈ L, c.m ≠ l.m ∧ val c e = val l e) ∨ hi = some e ∨ ∃ u ∈ U, u.m ≠ l.m ∧ val u e = val l e) := by
  have hne : ((L.filter fun c => l.m < c.m).map (ix l) ++ (U.filter fun u => u.m < l.m).map (ix l) ++ hi.toList) ≠ [] := by
    intro h
    simp only [List.append_eq_nil_iff, List.map_eq_nil_iff, List.filter_eq_nil_iff, decide_eq_true_eq] at h
    obtain ⟨⟨h1, h2⟩, h3⟩ := h
    rcases hev with ⟨c, hc, h'⟩ | h' | ⟨u, hu, h'⟩
    · exact h1 c hc h'
    · cases hi with
      | none => cases h'
      | some a => cases h3
    · exact h2 u hu h'
  obtain ⟨e, he, hmin⟩ := exists_min_list _ hne
  simp only [List.mem_append, List.mem_map, List.mem_filter, decide_eq_true_eq, Option.mem_toList] at he hmin
  have hLpos : ∀ c ∈ L, l.m < c.m → x0 ≤ ix l c := by
    intro c hc hlt
    have h1 := val_ix l c (ne_of_gt (sub_pos.mpr hlt)) x0
    have h2 := hL c hc
    by_contra hcon
    push Not at hcon
    have : 0 < (c.m - l.m) * (x0 - ix l c) := mul_pos (sub_pos.mpr hlt) (sub_pos.mpr hcon)
    linarith
  have hUpos : ∀ u ∈ U, u.m < l.m → x0 ≤ ix l u := by
    intro u hu hlt
    have h1 := val_ix l u (ne_of_lt (sub_neg.mpr hlt)) x0
    have h2 := hU u hu
    by_contra hcon
    push Not at hcon
    have : (u.m - l.m) * (x0 - ix l u) < 0 := mul_neg_of_neg_of_pos (sub_neg.mpr hlt) (sub_pos.mpr hcon)
    linarith
  have hx0 : x0 ≤ e := by
    rcases he with (⟨c, ⟨hc, hlt⟩, rfl⟩ | ⟨u, ⟨hu, hlt⟩, rfl⟩) | h
    · exact hLpos c hc hlt
    · exact hUpos u hu hlt
    · exact hhi e h
  refine ⟨e, hx0, fun h hh => hmin h (Or.inr hh), ⟨?_, ?_⟩, ?_, ?_⟩
  · intro u hu
    by_cases hlt : u.m < l.m
    · have h1 := val_ix l u (ne_of_lt (sub_neg.mpr hlt)) e
      have h2 := hmin (ix l u) (Or.inl (Or.inr ⟨u, ⟨hu, hlt⟩, rfl⟩))
      have : 0 ≤ (u.m - l.m) * (e - ix l u) := mul_nonneg_of_nonpos_of_nonpos (by linarith) (by linarith)
      linarith
    · have h1 := val_sub u e x0
      have h2 := val_sub l e x0
      have h3 := hU u hu
      have : 0 ≤ (u.m - l.m) * (e - x0) := mul_nonneg (by linarith) (by linarith)
      nlinarith
  · intro c hc
    by_cases hlt : l.m < c.m
    · have h1 := val_ix l c (ne_of_gt (sub_pos.mpr hlt)) e
      have h2 := hmin (ix l c) (Or.inl (Or.inl ⟨c, ⟨hc, hlt⟩, rfl⟩))
      have : (c.m - l.m) * (e - ix l c) ≤ 0 := mul_nonpos_of_nonneg_of_nonpos (by linarith) (by linarith)
      linarith
    · have h1 := val_sub c e x0
      have h2 := val_sub l e x0
      have h3 := hL c hc
      have : 0 ≤ (l.m - c.m) * (e - x0) := mul_nonneg (by linarith) (by linarith)
      nlinarith
  · have h2 := val_sub l e x0
    have : l.m * (e - x0) ≤ 0 := mul_nonpos_of_nonpos_of_nonneg hm (by linarith)
    linarith
  · rcases he with (⟨c, ⟨hc, hlt⟩, rfl⟩ | ⟨u, ⟨hu, hlt⟩, rfl⟩) | h
    · refine Or.inl ⟨c, hc, ne_of_gt hlt, ?_⟩
      have h1 := val_ix l c (ne_of_gt (sub_pos.mpr hlt)) (ix l c)
      rw [sub_self, mul_zero] at h1; linarith
    · refine Or.inr (Or.inr ⟨u, hu, ne_of_lt hlt, ?_⟩)
      have h1 := val_ix l u (ne_of_lt (sub_neg.mpr hlt)) (ix l u)
      rw [sub_self, mul_zero] at h1; linarith
    · exact Or.inr (Or.inl h)

/-! ## The mirror image -/

/-- The line seen in a mirror. -/
def mir (c : Cell K) : Cell K := { c with m := -c.m }

@[simp] theorem val_mir (c : Cell K) (x : K) : val (mir c) (-x) = val c x := by unfold val mir; simp
@[simp] theorem mir_m (c : Cell K) : (mir c).m = -c.m := rfl
@[simp] theorem mir_mir (c : Cell K) : mir (mir c) = c := by unfold mir; simp

theorem feas_mir (U L : List (Cell K)) (x y : K) : Feas (U.map mir) (L.map mir) (-x) y ↔ Feas U L x y := by
  unfold Feas; simp

theorem go_left (U L : List (Cell K)) (lo : Option K) (l : Cell K) (hl : l ∈ L) (x0 : K) (hL : ∀ c ∈ L, val c x0 ≤ val l x0)
    (hU : ∀ u ∈ U, val l x0 ≤ val u x0) (hlo : ∀ h, lo = some h → h ≤ x0) (hm : 0 ≤ l.m)
    (hev : (∃ c ∈ L, c.m < l.m) ∨ lo.isSome ∨ ∃ u ∈ U, l.m < u.m) :
    ∃ e, e ≤ x0 ∧ (∀ h, lo = some h → h ≤ e) ∧ Feas U L e (val l e) ∧ val l e ≤ val l x0 ∧
      ((∃ c ∈ L, c.m ≠ l.m ∧ val c e = val l e) ∨ lo = some e ∨ ∃ u ∈ U, u.m ≠ l.m ∧ val u e = val l e) := by
  have h := go_right (U.map mir) (L.map mir) (lo.map fun h => -h) (mir l) (List.mem_map_of_mem hl) (-x0) (by simpa using hL) (by simpa using hU)
    (by
      intro h hh
      cases lo with
      | none => cases hh
      | some a => simp only [Option.map_some, Option.some.injEq] at hh; have := hlo a rfl; linarith)
    (by simpa using hm)
    (by
      rcases hev with ⟨c, hc, h⟩ | h | ⟨u, hu, h⟩
      · exact Or.inl ⟨mir c, List.mem_map_of_mem hc, by simpa using h⟩
      · exact Or.inr (Or.inl (by simpa using h))
      · exact Or.inr (Or.inr ⟨mir u, List.mem_map_of_mem hu, by simpa using h⟩))
  obtain ⟨e, h1, h2, h3, h4, h5⟩ := h
  have hv : ∀ c : Cell K, val (mir c) e = val c (-e) := fun c => by
    have := val_mir c (-e); rwa [neg_neg] at this
  refine ⟨-e, by linarith, ?_, ?_, ?_, ?_⟩
  · intro h hh
    have := h2 (-h) (by rw [hh]; rfl)
    linarith
  · rw [← feas_mir, neg_neg, ← hv]; exact h3
  · rw [hv, val_mir] at h4; exact h4
  · rcases h5 with ⟨c, hc, hne, h⟩ | h | ⟨u, hu, hne, h⟩
    · obtain ⟨c', hc', rfl⟩ := List.mem_map.mp hc
      exact Or.inl ⟨c', hc', by simpa using hne, by rwa [hv, hv] at h⟩
    · cases lo with
      | none => cases h
      | some a =>
        simp only [Option.map_some, Option.some.injEq] at h
        exact Or.inr (Or.inl (by rw [← h, neg_neg]))
    · obtain ⟨u', hu', rfl⟩ := List.mem_map.mp hu
      exact Or.inr (Or.inr ⟨u', hu', by simpa using hne, by rwa [hv, hv] at h⟩)

/-! ## The direct solver -/

theorem foldl_keep {α β : Type*} (P : α → Prop) (f : α → β → α) (h : ∀ s b, P s → P (f s b)) : ∀ (l : List β) (s : α), P s → P (l.foldl f s)
  | [], _, hs => hs
  | b :: l, s, hs => foldl_keep P f h l (f s b) (h s b hs)

theorem foldl_hit {α β : Type*} (P : α → Prop) (f : α → β → α) (h : ∀ s b, P s → P (f s b)) (b : β) (hb : ∀ s, P (f s b)) :
    ∀ (l : List β) (s : α), b ∈ l → P (l.foldl f s)
  | c :: l, s, hm => by
    rcases List.mem_cons.mp hm with rfl | hm
    · exact foldl_keep P f h l _ (hb s)
    · exact foldl_hit P f h b hb l _ hm

/-- The best point so far is no worse than (x, y), if that is feasible. -/
def Acc (tol : K) (p : Prob K) (x : K) (y : Ext K) (s : Option (K × Ext K)) : Prop :=
  feasible tol p x y = true → ∃ x' y', s = some (x', y') ∧ y' ≤ y

/-- The best point so far is feasible, and not the initial one. -/
def Sound (tol : K) (p : Prob K) (s : Option (K × Ext K)) : Prop := ∀ x y, s = some (x, y) → feasible tol p x y = true ∧ y ≠ ⊤

theorem testDirect_sound (tol : K) (p : Prob K) (s : Option (K × Ext K)) (x : K) (y : Ext K) (hy : y ≠ ⊤) (h : Sound tol p s) :
    Sound tol p (testDirect tol p s x y) := by
  unfold testDirect
  by_cases hf : feasible tol p x y = true
  · rw [if_pos hf]
    cases s with
    | none => intro a b hab; cases hab; exact ⟨hf, hy⟩
    | some q =>
      dsimp only
      by_cases hy' : y > q.2
      · rw [if_pos hy']; exact h
      · rw [if_neg hy']; intro a b hab; cases hab; exact ⟨hf, hy⟩
  · rw [if_neg hf]; exact h

theorem testDirect_keep (tol : K) (p : Prob K) (s : Option (K × Ext K)) (x : K) (y : Ext K) (x0 : K) (y0 : Ext K) (h : Acc tol p x0 y0 s) :
    Acc tol p x0 y0 (testDirect tol p s x y) := by
  intro hf0
  obtain ⟨a, b, rfl, hb⟩ := h hf0
  unfold testDirect
  by_cases hf : feasible tol p x y = true
  · rw [if_pos hf]
    dsimp only
    by_cases hy : y > b
    · rw [if_pos hy]; exact ⟨a, b, rfl, hb⟩
    · rw [if_neg hy]; exact ⟨x, y, rfl, le_trans (not_lt.mp hy) hb⟩
  · rw [if_neg hf]; exact ⟨a, b, rfl, hb⟩

theorem testDirect_hit (tol : K) (p : Prob K) (s : Option (K × Ext K)) (x : K) (y : Ext K) : Acc tol p x y (testDirect tol p s x y) := by
  intro hf
  unfold testDirect
  rw [if_pos hf]
  cases s with
  | none => exact ⟨x, y, rfl, le_rfl⟩
  | some q =>
    dsimp only
    by_cases hy : y > q.2
    · rw [if_pos hy]; exact ⟨q.1, q.2, rfl, le_of_lt hy⟩
    · rw [if_neg hy]; exact ⟨x, y, rfl, le_rfl⟩

theorem testInter_keep (tol : K) (p : Prob K) (P : Option (K × Ext K) → Prop) (hP : ∀ s x y, y ≠ ⊤ → P s → P (testDirect tol p s x y)) (a : Cell K)
    (s : Option (K × Ext K)) (b : Cell K) (h : P s) : P (testInter tol p a s b) := by
  unfold testInter
  cases inter tol a b with
  | none => exact h
  | some q => exact hP s _ _ (ne_of_lt (fin_lt_top _)) h

theorem testInter_hit (tol : K) (p : Prob K) (a b : Cell K) (x y : K) (h : inter tol a b = some (x, y)) (s : Option (K × Ext K)) :
    Acc tol p x (fin y) (testInter tol p a s b) := by
  unfold testInter; rw [h]; exact testDirect_hit tol p s x (fin y)

theorem testPairs_keep (tol : K) (p : Prob K) (P : Option (K × Ext K) → Prop) (hP : ∀ s x y, y ≠ ⊤ → P s → P (testDirect tol p s x y)) :
    ∀ (l : List (Cell K)) (s : Option (K × Ext K)), P s → P (testPairs tol p l s)
  | [], _, h => h
  | a :: l, s, h => testPairs_keep tol p P hP l _ (foldl_keep P _ (fun s b => testInter_keep tol p P hP a s b) l s h)

theorem testPairs_hit (tol : K) (p : Prob K) (P : Option (K × Ext K) → Prop) (hP : ∀ s x y, y ≠ ⊤ → P s → P (testDirect tol p s x y)) (a b : Cell K)
    (hab : a ≠ b) (h1 : ∀ s, P (testInter tol p a s b)) (h2 : ∀ s, P (testInter tol p b s a)) :
    ∀ (l : List (Cell K)) (s : Option (K × Ext K)), a ∈ l → b ∈ l → P (testPairs tol p l s)
  | c :: l, s, ha, hb => by
    show P (testPairs tol p l (l.foldl (testInter tol p c) s))
    rcases List.mem_cons.mp ha with hac | ha
    · rcases List.mem_cons.mp hb with hbc | hb
      · exact absurd (hac.trans hbc.symm) hab
      · rw [← hac]
        exact testPairs_keep tol p P hP l _ (foldl_hit P _ (fun s b => testInter_keep tol p P hP a s b) b h1 l s hb)
    · rcases List.mem_cons.mp hb with hbc | hb
      · rw [← hbc]
        exact testPairs_keep tol p P hP l _ (foldl_hit P _ (fun s c => testInter_keep tol p P hP b s c) a h2 l s ha)
      · exact testPairs_hit tol p P hP a b hab h1 h2 l _ ha hb

theorem testEnd_keep (tol : K) (p : Prob K) (P : Option (K × Ext K) → Prop) (hP : ∀ s x y, y ≠ ⊤ → P s → P (testDirect tol p s x y)) (e : Ext K)
    (s : Option (K × Ext K)) (h : P s) : P (testEnd tol p e s) := by
  unfold testEnd
  cases real? e with
  | none => exact h
  | some x => exact hP s _ _ (lowerVal_ne_top _ _) h

/-- With any tolerance: a point the direct solver finds satisfies the stored constraints within the tolerance. -/
theorem direct_sound (tol : K) (p : Prob K) : Sound tol p (direct tol p) := by
  have hP : ∀ s x y, y ≠ ⊤ → Sound tol p s → Sound tol p (testDirect tol p s x y) := fun s x y hy => testDirect_sound tol p s x y hy
  unfold direct
  refine testEnd_keep tol p _ hP _ _ (testEnd_keep tol p _ hP _ _ (testPairs_keep tol p _ hP _ _ ?_))
  refine foldl_keep _ _ ?_ _ _ (fun x y h => by cases h)
  intro s a hs
  exact foldl_keep _ _ (fun s b => testInter_keep tol p _ hP a s b) _ _ hs

theorem direct_upper_lower (tol : K) (p : Prob K) (u l : Cell K) (hu : u ∈ p.upper) (hl : l ∈ p.lower) (x y : K)
    (h : inter tol u l = some (x, y)) : Acc tol p x (fin y) (direct tol p) := by
  have hP : ∀ s a b, b ≠ ⊤ → Acc tol p x (fin y) s → Acc tol p x (fin y) (testDirect tol p s a b) := fun s a b _ => testDirect_keep tol p s a b x (fin y)
  unfold direct
  refine testEnd_keep tol p _ hP _ _ (testEnd_keep tol p _ hP _ _ (testPairs_keep tol p _ hP _ _ ?_))
  refine foldl_hit _ _ ?_ u ?_ _ _ (by simpa using hu)
  · intro s a hs
    exact foldl_keep _ _ (fun s b => testInter_keep tol p _ hP a s b) _ _ hs
  · intro s
    exact foldl_hit _ _ (fun s b => testInter_keep tol p _ hP u s b) l (fun s => testInter_hit tol p u l x y h s) _ _ (by simpa using hl)

theorem direct_lower_lower (tol : K) (p : Prob K) (a b : Cell K) (ha : a ∈ p.lower) (hb : b ∈ p.lower) (hab : a ≠ b) (x y : K)
    (h1 : inter tol a b = some (x, y)) (h2 : inter tol b a = some (x, y)) : Acc tol p x (fin y) (direct tol p) := by
  have hP : ∀ s a b, b ≠ ⊤ → Acc tol p x (fin y) s → Acc tol p x (fin y) (testDirect tol p s a b) := fun s a b _ => testDirect_keep tol p s a b x (fin y)
  unfold direct
  refine testEnd_keep tol p _ hP _ _ (testEnd_keep tol p _ hP _ _ ?_)
  exact testPairs_hit tol p _ hP a b hab (fun s => testInter_hit tol p a b x y h1 s) (fun s => testInter_hit tol p b a x y h2 s) _ _
    (by simpa using ha) (by simpa using hb)

theorem direct_xmin (tol : K) (p : Prob K) (x : K) (hx : p.xmin = fin x) : Acc tol p x (lowerVal p.lower x) (direct tol p) := by
  have hP : ∀ s a b, b ≠ ⊤ → Acc tol p x (lowerVal p.lower x) s → Acc tol p x (lowerVal p.lower x) (testDirect tol p s a b) :=
    fun s a b _ => testDirect_keep tol p s a b x _
  unfold direct
  refine testEnd_keep tol p _ hP _ _ ?_
  unfold testEnd
  rw [hx]
  exact testDirect_hit tol p _ x _

theorem direct_xmax (tol : K) (p : Prob K) (x : K) (hx : p.xmax = fin x) : Acc tol p x (lowerVal p.lower x) (direct tol p) := by
  unfold direct
  unfold testEnd
  rw [hx]
  exact testDirect_hit tol p _ x _

/-- The cost is bounded as the first variable grows. -/
def PosB (p : Prob K) : Prop :=
  (∃ l ∈ p.lower, 0 < l.m) ∨ (p.lower ≠ [] ∧ ∃ h, p.xmax = fin h) ∨ ∃ u ∈ p.upper, ∃ l ∈ p.lower, u.m < l.m

/-- The cost is bounded as the first variable decreases. -/
def NegB (p : Prob K) : Prop :=
  (∃ l ∈ p.lower, l.m < 0) ∨ (p.lower ≠ [] ∧ ∃ h, p.xmin = fin h) ∨ ∃ u ∈ p.upper, ∃ l ∈ p.lower, l.m < u.m

theorem PosB.ne {p : Prob K} (h : PosB p) : p.lower ≠ [] := by
  rcases h with ⟨l, hl, _⟩ | ⟨h, _⟩ | ⟨_, _, l, hl, _⟩
  · exact List.ne_nil_of_mem hl
  · exact h
  · exact List.ne_nil_of_mem hl

theorem direct_finite (p : Prob K) (hne : p.lower ≠ []) {x : K} {e : Ext K} (h : direct 0 p = some (x, e)) :
    ∃ y, e = fin y ∧ InR p x ∧ Feas p.upper p.lower x y := by
  obtain ⟨hf, htop⟩ := direct_sound 0 p x e h
  rcases ext_cases e with h | h | ⟨y, h⟩
  · subst h
    exfalso
    obtain ⟨c, hc, hv⟩ := lowerVal_mem p.lower x hne
    simp only [feasible, neg_zero, shift_zero, Bool.and_eq_true, decide_eq_true_eq] at hf
    have := hf.2
    rw [hv] at this
    exact absurd (lt_of_lt_of_le (bot_lt_fin _) this) (lt_irrefl _)
  · exact absurd h htop
  · subst h
    exact ⟨y, rfl, (feasible_zero p x y).mp hf⟩

/-- No feasible point is better than what the direct solver finds. -/
theorem direct_complete (p : Prob K) (hpos : PosB p) (hneg : NegB p) (x0 y0 : K) (hr : InR p x0) (hf : Feas p.upper p.lower x0 y0) :
    ∃ x y, direct 0 p = some (x, fin y) ∧ InR p x ∧ Feas p.upper p.lower x y ∧ y ≤ y0 := by
  obtain ⟨l, hl, hlv⟩ := lowerVal_mem p.lower x0 hpos.ne
  have hmax : ∀ c ∈ p.lower, val c x0 ≤ val l x0 := fun c hc => by
    have := (lowerVal_le p.lower x0 (fin (val l x0))).mp (le_of_eq hlv) c hc
    simpa using this
  have hU : ∀ u ∈ p.upper, val l x0 ≤ val u x0 := fun u hu => le_trans (hf.2 l hl) (hf.1 u hu)
  -- a corner no worse than the point gives the claim
  have key : ∀ e y, InR p e → Feas p.upper p.lower e y → y ≤ y0 → Acc 0 p e (fin y) (direct 0 p) →
      ∃ x y, direct 0 p = some (x, fin y) ∧ InR p x ∧ Feas p.upper p.lower x y ∧ y ≤ y0 := by
    intro e y h1 h2 h3 h4
    obtain ⟨x', y', h5, h6⟩ := h4 ((feasible_zero p e y).mpr ⟨h1, h2⟩)
    obtain ⟨y'', rfl, h7, h8⟩ := direct_finite p hpos.ne h5
    exact ⟨x', y'', h5, h7, h8, le_trans (by simpa using h6) h3⟩
  have corner : ∀ e, InR p e → Feas p.upper p.lower e (val l e) → val l e ≤ val l x0 →
      ((∃ c ∈ p.lower, c.m ≠ l.m ∧ val c e = val l e) ∨ (p.xmin = fin e ∨ p.xmax = fin e) ∨ ∃ u ∈ p.upper, u.m ≠ l.m ∧ val u e = val l e) →
      ∃ x y, direct 0 p = some (x, fin y) ∧ InR p x ∧ Feas p.upper p.lower x y ∧ y ≤ y0 := by
    intro e h1 h2 h3 h4
    refine key e (val l e) h1 h2 (le_trans h3 (hf.2 l hl)) ?_
    have hlow : lowerVal p.lower e = fin (val l e) := le_antisymm ((lowerVal_le _ _ _).mpr fun c hc => by simpa using h2.2 c hc)
      (by simpa using (lowerVal_le p.lower e _).mp le_rfl l hl)
    rcases h4 with ⟨c, hc, hne, h⟩ | (h | h) | ⟨u, hu, hne, h⟩
    · refine direct_lower_lower 0 p c l hc hl (fun hcl => hne (by rw [hcl])) _ _ ?_ ?_
      · rw [inter_zero hne h, h]
      · rw [inter_zero hne.symm h.symm]
    · rw [← hlow]; exact direct_xmin 0 p e h
    · rw [← hlow]; exact direct_xmax 0 p e h
    · refine direct_upper_lower 0 p u l hu hl _ _ ?_
      rw [inter_zero hne h, h]
  rcases le_total l.m 0 with hm | hm
  · obtain ⟨e, h1, h2, h3, h4, h5⟩ := go_right p.upper p.lower (real? p.xmax) l hl x0 hmax hU
      (fun h hh => by have := hr.2; rw [real?_some hh] at this; simpa using this) hm (by
        rcases hpos with ⟨c, hc, h⟩ | ⟨_, h, hh⟩ | ⟨u, hu, c, hc, h⟩
        · exact Or.inl ⟨c, hc, lt_of_le_of_lt hm h⟩
        · exact Or.inr (Or.inl (by rw [hh]; rfl))
        · rcases lt_or_ge l.m c.m with h' | h'
          · exact Or.inl ⟨c, hc, h'⟩
          · exact Or.inr (Or.inr ⟨u, hu, lt_of_lt_of_le h h'⟩))
    refine corner e ⟨le_trans hr.1 (by simpa using h1), ?_⟩ h3 h4 ?_
    · rcases ext_cases p.xmax with h | h | ⟨b, h⟩
      · exact absurd (lt_of_lt_of_le (bot_lt_fin x0) (h ▸ hr.2)) (lt_irrefl _)
      · rw [h]; exact le_of_lt (fin_lt_top e)
      · rw [h]; simpa using h2 b (by rw [h]; rfl)
    · rcases h5 with h | h | h
      · exact Or.inl h
      · exact Or.inr (Or.inl (Or.inr (real?_some h)))
      · exact Or.inr (Or.inr h)
  · obtain ⟨e, h1, h2, h3, h4, h5⟩ := go_left p.upper p.lower (real? p.xmin) l hl x0 hmax hU
      (fun h hh => by have := hr.1; rw [real?_some hh] at this; simpa using this) hm (by
        rcases hneg with ⟨c, hc, h⟩ | ⟨_, h, hh⟩ | ⟨u, hu, c, hc, h⟩
        · exact Or.inl ⟨c, hc, lt_of_lt_of_le h hm⟩
        · exact Or.inr (Or.inl (by rw [hh]; rfl))
        · rcases lt_or_ge c.m l.m with h' | h'
          · exact Or.inl ⟨c, hc, h'⟩
          · exact Or.inr (Or.inr ⟨u, hu, lt_of_le_of_lt h' h⟩))
    refine corner e ⟨?_, le_trans (by simpa using h1) hr.2⟩ h3 h4 ?_
    · rcases ext_cases p.xmin with h | h | ⟨b, h⟩
      · rw [h]; exact bot_le
      · exact absurd (lt_of_le_of_lt (h ▸ hr.1) (fin_lt_top x0)) (lt_irrefl _)
      · rw [h]; simpa using h2 b (by rw [h]; rfl)
    · rcases h5 with h | h | h
      · exact Or.inl h
      · exact Or.inr (Or.inl (Or.inl (real?_some h)))
      · exact Or.inr (Or.inr h)

/-! ## What is stored -/

/-- The stored numbers are what they should be. -/
structure WF (p : Prob K) : Prop where
  xmin : p.xmin ≠ ⊤
  xmax : p.xmax ≠ ⊥
  mlMax : ∀ e, p.mlMax ≤ e ↔ ∀ l ∈ p.lower, fin l.m ≤ e
  mlMin : ∀ e, e ≤ p.mlMin ↔ ∀ l ∈ p.lower, e ≤ fin l.m
  muMax : ∀ e, p.muMax ≤ e ↔ ∀ l ∈ p.upper, fin l.m ≤ e
  muMin : ∀ e, e ≤ p.muMin ↔ ∀ l ∈ p.upper, e ≤ fin l.m
  pos : p.pos = true → PosB p
  neg : p.neg = true → NegB p
  det : p.det = false → (∀ c ∈ p.upper, c.m = 0) ∧ (∀ c ∈ p.lower, c.m = 0) ∧ p.xmin = ⊥ ∧ p.xmax = ⊤
  pools : p.upperPool = p.upper ∧ p.lowerPool = p.lower ∧ p.upperPair = [] ∧ p.lowerPair = []

theorem emax_le (m : K) (e f : Ext K) : emax m e ≤ f ↔ fin m ≤ f ∧ e ≤ f := by
  unfold emax
  by_cases h : fin m > e
  · rw [if_pos h]; exact ⟨fun h' => ⟨h', le_trans (le_of_lt h) h'⟩, fun h' => h'.1⟩
  · rw [if_neg h]; exact ⟨fun h' => ⟨le_trans (not_lt.mp h) h', h'⟩, fun h' => h'.2⟩

theorem le_emin (m : K) (e f : Ext K) : f ≤ emin m e ↔ f ≤ fin m ∧ f ≤ e := by
  unfold emin
  by_cases h : fin m < e
  · rw [if_pos h]; exact ⟨fun h' => ⟨h', le_trans h' (le_of_lt h)⟩, fun h' => h'.1⟩
  · rw [if_neg h]; exact ⟨fun h' => ⟨le_trans h' (not_lt.mp h), h'⟩, fun h' => h'.2⟩

/-- The condition the code tests for the positive direction, in terms of the lines. -/
theorem pos_cond (p : Prob K) (h1 : p.xmax ≠ ⊥) (h2 : ∀ e, p.mlMax ≤ e ↔ ∀ l ∈ p.lower, fin l.m ≤ e)
    (h3 : ∀ e, e ≤ p.muMin ↔ ∀ l ∈ p.upper, e ≤ fin l.m) :
    (decide (p.mlMax > fin 0) || (!p.lower.isEmpty && decide (p.xmax < ⊤)) ||
      (!p.upper.isEmpty && !p.lower.isEmpty && decide (p.muMin < p.mlMax))) = true ↔ PosB p := by
  have e1 : p.mlMax > fin 0 ↔ ∃ l ∈ p.lower, 0 < l.m := by
    rw [gt_iff_lt, ← not_le, h2]; push Not; simp
  have e2 : p.xmax < ⊤ ↔ ∃ h, p.xmax = fin h := by
    rcases ext_cases p.xmax with h | h | ⟨b, h⟩
    · exact absurd h h1
    · rw [h]; exact ⟨fun h => absurd h (lt_irrefl _), fun ⟨b, hb⟩ => hb ▸ fin_lt_top b⟩
    · rw [h]; exact ⟨fun _ => ⟨b, rfl⟩, fun _ => fin_lt_top b⟩
  have e3 : p.muMin < p.mlMax ↔ ∃ u ∈ p.upper, ∃ l ∈ p.lower, u.m < l.m := by
    rw [← not_le, h2]
    simp only [h3, fin_le]
    push Not
    exact ⟨fun ⟨l, hl, u, hu, h⟩ => ⟨u, hu, l, hl, h⟩, fun ⟨u, hu, l, hl, h⟩ => ⟨l, hl, u, hu, h⟩⟩
  simp only [Bool.or_eq_true, Bool.and_eq_true, decide_eq_true_eq, Bool.not_eq_true', List.isEmpty_eq_false_iff, e1, e2, e3, PosB]
  constructor
  · rintro ((h | h) | h)
    · exact Or.inl h
    · exact Or.inr (Or.inl h)
    · exact Or.inr (Or.inr h.2)
  · rintro (h | h | h)
    · exact Or.inl (Or.inl h)
    · exact Or.inl (Or.inr h)
    · obtain ⟨u, hu, l, hl, h⟩ := h
      exact Or.inr ⟨⟨List.ne_nil_of_mem hu, List.ne_nil_of_mem hl⟩, u, hu, l, hl, h⟩

theorem neg_cond (p : Prob K) (h1 : p.xmin ≠ ⊤) (h2 : ∀ e, e ≤ p.mlMin ↔ ∀ l ∈ p.lower, e ≤ fin l.m)
    (h3 : ∀ e, p.muMax ≤ e ↔ ∀ l ∈ p.upper, fin l.m ≤ e) :
    (decide (p.mlMin < fin 0) || (!p.lower.isEmpty && decide (p.xmin > ⊥)) ||
      (!p.upper.isEmpty && !p.lower.isEmpty && decide (p.muMax > p.mlMin))) = true ↔ NegB p := by
  have e1 : p.mlMin < fin 0 ↔ ∃ l ∈ p.lower, l.m < 0 := by
    rw [← not_le, h2]; push Not; simp
  have e2 : p.xmin > ⊥ ↔ ∃ h, p.xmin = fin h := by
    rcases ext_cases p.xmin with h | h | ⟨b, h⟩
    · rw [h]; exact ⟨fun h => absurd h (lt_irrefl _), fun ⟨b, hb⟩ => hb ▸ bot_lt_fin b⟩
    · exact absurd h h1
    · rw [h]; exact ⟨fun _ => ⟨b, rfl⟩, fun _ => bot_lt_fin b⟩
  have e3 : p.muMax > p.mlMin ↔ ∃ u ∈ p.upper, ∃ l ∈ p.lower, l.m < u.m := by
    rw [gt_iff_lt, ← not_le, h3]
    simp only [h2, fin_le]
    push Not
    exact Iff.rfl
  simp only [Bool.or_eq_true, Bool.and_eq_true, decide_eq_true_eq, Bool.not_eq_true', List.isEmpty_eq_false_iff, e1, e2, e3, NegB]
  constructor
  · rintro ((h | h) | h)
    · exact Or.inl h
    · exact Or.inr (Or.inl h)
    · exact Or.inr (Or.inr h.2)
  · rintro (h | h | h)
    · exact Or.inl (Or.inl h)
    · exact Or.inl (Or.inr h)
    · obtain ⟨u, hu, l, hl, h⟩ := h
      exact Or.inr ⟨⟨List.ne_nil_of_mem hu, List.ne_nil_of_mem hl⟩, u, hu, l, hl, h⟩

theorem PosB.mono {p q : Prob K} (h : PosB p) (h1 : ∀ c ∈ p.lower, c ∈ q.lower) (h2 : ∀ c ∈ p.upper, c ∈ q.upper)
    (h3 : ∀ a, p.xmax = fin a → ∃ b, q.xmax = fin b) : PosB q := by
  rcases h with ⟨l, hl, h⟩ | ⟨h, a, ha⟩ | ⟨u, hu, l, hl, h⟩
  · exact Or.inl ⟨l, h1 l hl, h⟩
  · obtain ⟨c, hc⟩ := List.exists_mem_of_ne_nil _ h
    exact Or.inr (Or.inl ⟨List.ne_nil_of_mem (h1 c hc), h3 a ha⟩)
  · exact Or.inr (Or.inr ⟨u, h2 u hu, l, h1 l hl, h⟩)

theorem NegB.mono {p q : Prob K} (h : NegB p) (h1 : ∀ c ∈ p.lower, c ∈ q.lower) (h2 : ∀ c ∈ p.upper, c ∈ q.upper)
    (h3 : ∀ a, p.xmin = fin a → ∃ b, q.xmin = fin b) : NegB q := by
  rcases h with ⟨l, hl, h⟩ | ⟨h, a, ha⟩ | ⟨u, hu, l, hl, h⟩
  · exact Or.inl ⟨l, h1 l hl, h⟩
  · obtain ⟨c, hc⟩ := List.exists_mem_of_ne_nil _ h
    exact Or.inr (Or.inl ⟨List.ne_nil_of_mem (h1 c hc), h3 a ha⟩)
  · exact Or.inr (Or.inr ⟨u, h2 u hu, l, h1 l hl, h⟩)

/-- Adding a line: the numbers stay right, and the flags become exact. -/
theorem addLine_wf (p : Prob K) (h : WF p) (up : Bool) (m y0 : K) :
    WF (setFlags (addLine 0 p up m y0)) ∧ ((setFlags (addLine 0 p up m y0)).pos = true ↔ PosB (setFlags (addLine 0 p up m y0))) ∧
      ((setFlags (addLine 0 p up m y0)).neg = true ↔ NegB (setFlags (addLine 0 p up m y0))) := by
  have hdet : (p.det || !decide (|m| ≤ 0)) = false → p.det = false ∧ m = 0 := by
    intro h
    simp only [Bool.or_eq_false_iff, Bool.not_eq_false', decide_eq_true_eq] at h
    exact ⟨h.1, abs_eq_zero.mp (le_antisymm h.2 (abs_nonneg m))⟩
  -- the state before the flags
  have main : ∀ q : Prob K, q = addLine 0 p up m y0 → q.xmin ≠ ⊤ → q.xmax ≠ ⊥ → (∀ e, q.mlMax ≤ e ↔ ∀ l ∈ q.lower, fin l.m ≤ e) →
      (∀ e, e ≤ q.mlMin ↔ ∀ l ∈ q.lower, e ≤ fin l.m) → (∀ e, q.muMax ≤ e ↔ ∀ l ∈ q.upper, fin l.m ≤ e) →
      (∀ e, e ≤ q.muMin ↔ ∀ l ∈ q.upper, e ≤ fin l.m) → (q.pos = true → PosB q) → (q.neg = true → NegB q) →
      (q.det = false → (∀ c ∈ q.upper, c.m = 0) ∧ (∀ c ∈ q.lower, c.m = 0) ∧ q.xmin = ⊥ ∧ q.xmax = ⊤) →
      (q.upperPool = q.upper ∧ q.lowerPool = q.lower ∧ q.upperPair = [] ∧ q.lowerPair = []) →
      WF (setFlags q) ∧ ((setFlags q).pos = true ↔ PosB (setFlags q)) ∧ ((setFlags q).neg = true ↔ NegB (setFlags q)) := by
    intro q _ h1 h2 h3 h4 h5 h6 h7 h8 h9 h10
    have hp : (setFlags q).pos = true ↔ PosB (setFlags q) := by
      show (q.pos || _) = true ↔ PosB q
      rw [Bool.or_eq_true, pos_cond q h2 h3 h6]
      exact ⟨fun h => h.elim h7 id, Or.inr⟩
    have hn : (setFlags q).neg = true ↔ NegB (setFlags q) := by
      show (q.neg || _) = true ↔ NegB q
      rw [Bool.or_eq_true, neg_cond q h1 h4 h5]
      exact ⟨fun h => h.elim h8 id, Or.inr⟩
    exact ⟨⟨h1, h2, h3, h4, h5, h6, hp.mp, hn.mp, h9, h10⟩, hp, hn⟩
  cases up with
  | true =>
    refine main _ rfl h.xmin h.xmax h.mlMax h.mlMin ?_ ?_ ?_ ?_ ?_ ?_
    · intro e
      show emax m p.muMax ≤ e ↔ _
      rw [emax_le, h.muMax]
      simp [addLine]
    · intro e
      show e ≤ emin m p.muMin ↔ _
      rw [le_emin, h.muMin]
      simp [addLine]
    · intro h'
      exact (h.pos h').mono (fun c hc => hc) (fun c hc => List.mem_cons_of_mem _ hc) (fun a ha => ⟨a, ha⟩)
    · intro h'
      exact (h.neg h').mono (fun c hc => hc) (fun c hc => List.mem_cons_of_mem _ hc) (fun a ha => ⟨a, ha⟩)
    · intro h'
      obtain ⟨h1, h2⟩ := hdet h'
      obtain ⟨h3, h4, h5⟩ := h.det h1
      refine ⟨?_, h4, h5⟩
      intro c hc
      rcases List.mem_cons.mp hc with rfl | hc
      · exact h2
      · exact h3 c hc
    · obtain ⟨h1, h2, h3, h4⟩ := h.pools
      exact ⟨congrArg _ h1, h2, h3, h4⟩
  | false =>
    refine main _ rfl h.xmin h.xmax ?_ ?_ h.muMax h.muMin ?_ ?_ ?_ ?_
    · intro e
      show emax m p.mlMax ≤ e ↔ _
      rw [emax_le, h.mlMax]
      simp [addLine]
    · intro e
      show e ≤ emin m p.mlMin ↔ _
      rw [le_emin, h.mlMin]
      simp [addLine]
    · intro h'
      exact (h.pos h').mono (fun c hc => List.mem_cons_of_mem _ hc) (fun c hc => hc) (fun a ha => ⟨a, ha⟩)
    · intro h'
      exact (h.neg h').mono (fun c hc => List.mem_cons_of_mem _ hc) (fun c hc => hc) (fun a ha => ⟨a, ha⟩)
    · intro h'
      obtain ⟨h1, h2⟩ := hdet h'
      obtain ⟨h3, h4, h5⟩ := h.det h1
      refine ⟨h3, ?_, h5⟩
      intro c hc
      rcases List.mem_cons.mp hc with rfl | hc
      · exact h2
      · exact h4 c hc
    · obtain ⟨h1, h2, h3, h4⟩ := h.pools
      exact ⟨h1, congrArg _ h2, h3, h4⟩

/-- What a constraint on the first variable alone does. -/
theorem addVertical_spec (p : Prob K) (h : WF p) (a1 b : K) (ha : a1 ≠ 0) : ∃ X Y d, (addVertical p a1 b).1 = { p with xmin := X, xmax := Y, det := d } ∧
    X ≠ ⊤ ∧ Y ≠ ⊥ ∧ (∀ a, p.xmin = fin a → ∃ a, X = fin a) ∧ (∀ a, p.xmax = fin a → ∃ a, Y = fin a) ∧ d = true ∧
    ∀ x, (X ≤ fin x ∧ fin x ≤ Y) ↔ (p.xmin ≤ fin x ∧ fin x ≤ p.xmax) ∧ a1 * x ≤ b := by
  have hlt : a1 < 0 → ∀ x, a1 * x ≤ b ↔ b / a1 ≤ x := fun h x => by rw [div_le_iff_of_neg h, mul_comm]
  have hgt : 0 < a1 → ∀ x, a1 * x ≤ b ↔ x ≤ b / a1 := fun h x => by rw [le_div_iff₀ h, mul_comm]
  have hdet : ∀ {q}, p.xmin = q → q ≠ ⊥ → p.det = true := fun hq hne => by
    by_contra hd; exact hne (hq ▸ (h.det (by simpa using hd)).2.2.1)
  have hdet' : ∀ {q}, p.xmax = q → q ≠ ⊤ → p.det = true := fun hq hne => by
    by_contra hd; exact hne (hq ▸ (h.det (by simpa using hd)).2.2.2)
  unfold addVertical
  by_cases h1 : a1 < 0 ∧ fin (b / a1) > p.xmin
  · simp only [if_pos h1]
    have hin : ∀ x, (fin (b / a1) ≤ fin x ∧ fin x ≤ p.xmax) ↔ (p.xmin ≤ fin x ∧ fin x ≤ p.xmax) ∧ a1 * x ≤ b := fun x => by
      rw [hlt h1.1, fin_le]
      exact ⟨fun ⟨h2, h3⟩ => ⟨⟨le_trans (le_of_lt h1.2) (by simpa using h2), h3⟩, h2⟩, fun ⟨⟨_, h3⟩, h2⟩ => ⟨h2, h3⟩⟩
    by_cases h2 : fin (b / a1) > p.xmax
    · rw [if_pos h2]
      refine ⟨fin (b / a1), p.xmax, p.det, rfl, ne_of_lt (fin_lt_top _), h.xmax, fun _ _ => ⟨_, rfl⟩, fun a ha => ⟨a, ha⟩, ?_, hin⟩
      exact hdet' rfl (ne_of_lt (lt_trans h2 (fin_lt_top _)))
    · rw [if_neg h2]
      exact ⟨fin (b / a1), p.xmax, true, rfl, ne_of_lt (fin_lt_top _), h.xmax, fun _ _ => ⟨_, rfl⟩, fun a ha => ⟨a, ha⟩, rfl, hin⟩
  · simp only [if_neg h1]
    by_cases h2 : a1 > 0 ∧ fin (b / a1) < p.xmax
    · simp only [if_pos h2]
      have hin : ∀ x, (p.xmin ≤ fin x ∧ fin x ≤ fin (b / a1)) ↔ (p.xmin ≤ fin x ∧ fin x ≤ p.xmax) ∧ a1 * x ≤ b := fun x => by
        rw [hgt h2.1, fin_le]
        exact ⟨fun ⟨h3, h4⟩ => ⟨⟨h3, le_trans (by simpa using h4) (le_of_lt h2.2)⟩, h4⟩, fun ⟨⟨h3, _⟩, h4⟩ => ⟨h3, h4⟩⟩
      by_cases h3 : fin (b / a1) < p.xmin
      · rw [if_pos h3]
        refine ⟨p.xmin, fin (b / a1), p.det, rfl, h.xmin, ne_of_gt (bot_lt_fin _), fun a ha => ⟨a, ha⟩, fun _ _ => ⟨_, rfl⟩, ?_, hin⟩
        exact hdet rfl (ne_of_gt (lt_trans (bot_lt_fin _) h3))
      · rw [if_neg h3]
        exact ⟨p.xmin, fin (b / a1), true, rfl, h.xmin, ne_of_gt (bot_lt_fin _), fun a ha => ⟨a, ha⟩, fun _ _ => ⟨_, rfl⟩, rfl, hin⟩
    · simp only [if_neg h2]
      refine ⟨p.xmin, p.xmax, true, rfl, h.xmin, h.xmax, fun a ha => ⟨a, ha⟩, fun a ha => ⟨a, ha⟩, rfl, fun x => ?_⟩
      refine ⟨fun h3 => ⟨h3, ?_⟩, fun h3 => h3.1⟩
      rcases lt_or_gt_of_ne ha with h4 | h4
      · rw [hlt h4]
        have : fin (b / a1) ≤ p.xmin := not_lt.mp fun h5 => h1 ⟨h4, h5⟩
        simpa using le_trans this h3.1
      · rw [hgt h4]
        have : p.xmax ≤ fin (b / a1) := not_lt.mp fun h5 => h2 ⟨h4, h5⟩
        simpa using le_trans h3.2 this

/-- The stored problem is the problem of the user, with the cost as the second coordinate. -/
structure Rep (c1 c2 : K) (cs : List (K × K × K)) (p : Prob K) : Prop where
  e1 : p.c1 = c1
  e2 : p.c2 = c2
  sat : ∀ x1 x2, Sat cs x1 x2 ↔ InR p x1 ∧ Feas p.upper p.lower x1 (c1 * x1 + c2 * x2)

theorem sat_append (cs : List (K × K × K)) (c : K × K × K) (x1 x2 : K) :
    Sat (cs ++ [c]) x1 x2 ↔ Sat cs x1 x2 ∧ c.1 * x1 + c.2.1 * x2 ≤ c.2.2 := by
  unfold Sat
  simp only [List.mem_append, List.mem_singleton]
  exact ⟨fun h => ⟨fun d hd => h d (Or.inl hd), h c (Or.inr rfl)⟩, fun h d hd => hd.elim (h.1 d) fun e => e ▸ h.2⟩

/-- Adding one constraint that is not void. -/
theorem addConstraint_spec {c1 c2 : K} (hc2 : c2 ≠ 0) {cs : List (K × K × K)} {p : Prob K} (h : WF p) (hr : Rep c1 c2 cs p) (a1 a2 b : K)
    (ha : a1 ≠ 0 ∨ a2 ≠ 0) : WF (zLPMegiddoDyerAddConstraint 0 p a1 a2 b).1 ∧ Rep c1 c2 (cs ++ [(a1, a2, b)]) (zLPMegiddoDyerAddConstraint 0 p a1 a2 b).1 ∧
      (a2 ≠ 0 → ((zLPMegiddoDyerAddConstraint 0 p a1 a2 b).1.pos = true ↔ PosB (zLPMegiddoDyerAddConstraint 0 p a1 a2 b).1) ∧
        ((zLPMegiddoDyerAddConstraint 0 p a1 a2 b).1.neg = true ↔ NegB (zLPMegiddoDyerAddConstraint 0 p a1 a2 b).1) ∧
        (zLPMegiddoDyerAddConstraint 0 p a1 a2 b).1.xmin = p.xmin ∧ (zLPMegiddoDyerAddConstraint 0 p a1 a2 b).1.xmax = p.xmax) := by
  have abs0 : ∀ a : K, |a| ≤ 0 ↔ a = 0 := fun a => abs_nonpos_iff
  unfold zLPMegiddoDyerAddConstraint
  simp only [abs0]
  by_cases h2 : a2 = 0
  · rw [if_pos h2]
    have h1 : a1 ≠ 0 := ha.resolve_right (fun h => h h2)
    rw [if_neg h1]
    obtain ⟨X, Y, d, he, hX, hY, hx, hy, hd, hin⟩ := addVertical_spec p h a1 b h1
    rw [he]
    refine ⟨⟨hX, hY, h.mlMax, h.mlMin, h.muMax, h.muMin, ?_, ?_, ?_, h.pools⟩, ⟨hr.e1, hr.e2, ?_⟩, fun h' => absurd h2 h'⟩
    · intro hp
      exact (h.pos hp).mono (fun _ hc => hc) (fun _ hc => hc) hy
    · intro hp
      exact (h.neg hp).mono (fun _ hc => hc) (fun _ hc => hc) hx
    · intro h'
      rw [hd] at h'; cases h'
    · intro x1 x2
      rw [sat_append, hr.sat]
      show (InR p x1 ∧ _) ∧ a1 * x1 + a2 * x2 ≤ b ↔ (X ≤ fin x1 ∧ fin x1 ≤ Y) ∧ _
      rw [hin, h2, zero_mul, add_zero]
      unfold InR
      tauto
  · rw [if_neg h2, hr.e2, if_neg hc2, hr.e1]
    have ht : a2 / c2 ≠ 0 := div_ne_zero h2 hc2
    obtain ⟨hw, hp, hn⟩ := addLine_wf p h (decide (a2 / c2 > 0)) (c1 - a1 / (a2 / c2)) (b / (a2 / c2))
    refine ⟨hw, ⟨?_, ?_, ?_⟩, fun _ => ⟨hp, hn, ?_, ?_⟩⟩
    · rw [← hr.e1]; cases decide (a2 / p.c2 > 0) <;> (unfold addLine setFlags; split <;> rfl)
    · rw [← hr.e2]; unfold addLine setFlags; split <;> rfl
    · intro x1 x2
      rw [sat_append, hr.sat]
      have hline : a1 * x1 + a2 * x2 ≤ b ↔ (a2 / c2) * (c1 * x1 + c2 * x2) ≤ (a2 / c2) * ((c1 - a1 / (a2 / c2)) * x1 + b / (a2 / c2)) := by
        have e1 : (a2 / c2) * (c1 * x1 + c2 * x2) = (a2 / c2) * c1 * x1 + a2 * x2 := by field_simp
        have e2 : (a2 / c2) * ((c1 - a1 / (a2 / c2)) * x1 + b / (a2 / c2)) = (a2 / c2) * c1 * x1 - a1 * x1 + b := by
          have e3 : (a2 / c2) * (a1 / (a2 / c2)) = a1 := mul_div_cancel₀ a1 ht
          have e4 : (a2 / c2) * (b / (a2 / c2)) = b := mul_div_cancel₀ b ht
          linear_combination (-x1) * e3 + e4
        rw [e1, e2]
        constructor <;> intro h <;> linarith
      by_cases hpos : a2 / c2 > 0
      · have hh : a1 * x1 + a2 * x2 ≤ b ↔ c1 * x1 + c2 * x2 ≤ (c1 - a1 / (a2 / c2)) * x1 + b / (a2 / c2) := by
          rw [hline]; exact mul_le_mul_iff_right₀ hpos
        rw [decide_eq_true hpos, hh]
        unfold InR Feas
        simp only [setFlags, addLine, if_true, List.mem_cons, forall_eq_or_imp, val]
        tauto
      · have hlt : a2 / c2 < 0 := lt_of_le_of_ne (not_lt.mp hpos) ht
        have hh : a1 * x1 + a2 * x2 ≤ b ↔ (c1 - a1 / (a2 / c2)) * x1 + b / (a2 / c2) ≤ c1 * x1 + c2 * x2 := by
          rw [hline]; exact mul_le_mul_left_of_neg hlt
        rw [decide_eq_false hpos, hh]
        unfold InR Feas
        simp only [setFlags, addLine, Bool.false_eq_true, if_false, List.mem_cons, forall_eq_or_imp, val]
        tauto
    · unfold addLine setFlags; split <;> rfl
    · unfold addLine setFlags; split <;> rfl

theorem init_wf (c1 c2 : K) (hc2 : c2 ≠ 0) : WF (zLPMegiddoDyerSetCostCoefficient 0 zLPMegiddoDyerInit c1 c2).1 ∧
    Rep c1 c2 [] (zLPMegiddoDyerSetCostCoefficient 0 zLPMegiddoDyerInit c1 c2).1 := by
  have h0 : ¬ |c2| ≤ 0 := by rw [abs_nonpos_iff]; exact hc2
  unfold zLPMegiddoDyerSetCostCoefficient
  rw [if_neg h0]
  refine ⟨⟨?_, ?_, ?_, ?_, ?_, ?_, ?_, ?_, ?_, ⟨rfl, rfl, rfl, rfl⟩⟩, rfl, rfl, ?_⟩
  · exact fun h => absurd h (by simp [zLPMegiddoDyerInit])
  · exact fun h => absurd h (by simp [zLPMegiddoDyerInit])
  · intro e; simp [zLPMegiddoDyerInit]
  · intro e; simp [zLPMegiddoDyerInit]
  · intro e; simp [zLPMegiddoDyerInit]
  · intro e; simp [zLPMegiddoDyerInit]
  · intro h; cases h
  · intro h; cases h
  · intro _; simp [zLPMegiddoDyerInit]
  · intro x1 x2; simp [zLPMegiddoDyerInit, Sat, InR, Feas]

theorem addAll_spec {c1 c2 : K} (hc2 : c2 ≠ 0) : ∀ (cs ds : List (K × K × K)) (p : Prob K), WF p → Rep c1 c2 ds p →
    (∀ c ∈ cs, c.1 ≠ 0 ∨ c.2.1 ≠ 0) → WF (addAll 0 p cs) ∧ Rep c1 c2 (ds ++ cs) (addAll 0 p cs)
  | [], ds, p, h, hr, _ => by rw [List.append_nil]; exact ⟨h, hr⟩
  | (a1, a2, b) :: cs, ds, p, h, hr, hc => by
    obtain ⟨h1, h2, _⟩ := addConstraint_spec hc2 h hr a1 a2 b (hc _ List.mem_cons_self)
    have := addAll_spec hc2 cs (ds ++ [(a1, a2, b)]) _ h1 h2 fun c hcs => hc c (List.mem_cons_of_mem _ hcs)
    rwa [List.append_assoc] at this

/-- The stored problem is the problem of the user. -/
theorem problem_spec {c1 c2 : K} (hc2 : c2 ≠ 0) (cs : List (K × K × K)) (hc : ∀ c ∈ cs, c.1 ≠ 0 ∨ c.2.1 ≠ 0) :
    WF (problem 0 c1 c2 cs) ∧ Rep c1 c2 cs (problem 0 c1 c2 cs) :=
  addAll_spec hc2 cs [] _ (init_wf c1 c2 hc2).1 (init_wf c1 c2 hc2).2 hc

/-! ## The direct solver is exact -/

/-- What a user may rely on: a solution is optimal, with its cost; a problem reported to be unsolvable has no point that satisfies its constraints. -/
def Answer (c1 c2 : K) (cs : List (K × K × K)) : Out K → Prop
  | .solved x1 x2 cost => Optimal c1 c2 cs x1 x2 ∧ cost = c1 * x1 + c2 * x2
  | .unsolvable => ¬ ∃ x1 x2, Sat cs x1 x2
  | .infinite => True
  | _ => False

theorem answer_of_best {c1 c2 : K} (hc2 : c2 ≠ 0) {cs : List (K × K × K)} {p : Prob K} (hr : Rep c1 c2 cs p) (q : Prob K) (h1 : q.c1 = c1) (h2 : q.c2 = c2)
    (x y : K) (hx : InR p x) (hf : Feas p.upper p.lower x y) (hbest : ∀ x' y', InR p x' → Feas p.upper p.lower x' y' → y ≤ y') :
    Answer c1 c2 cs (finish q x (fin y)) := by
  unfold finish
  rw [real?_fin]
  dsimp only
  rw [h2, if_neg hc2, h1]
  have hy : c1 * x + c2 * ((y - c1 * x) / c2) = y := by field_simp; ring
  refine ⟨⟨?_, ?_⟩, hy.symm⟩
  · rw [hr.sat, hy]; exact ⟨hx, hf⟩
  · intro z1 z2 hz
    rw [hy]
    exact hbest _ _ ((hr.sat z1 z2).mp hz).1 ((hr.sat z1 z2).mp hz).2

theorem sat_of_feas {c1 c2 : K} (hc2 : c2 ≠ 0) {cs : List (K × K × K)} {p : Prob K} (hr : Rep c1 c2 cs p) (x y : K) (hx : InR p x)
    (hf : Feas p.upper p.lower x y) : Sat cs x ((y - c1 * x) / c2) := by
  have hy : c1 * x + c2 * ((y - c1 * x) / c2) = y := by field_simp; ring
  rw [hr.sat, hy]; exact ⟨hx, hf⟩

theorem finishDirect_correct {c1 c2 : K} (hc2 : c2 ≠ 0) {cs : List (K × K × K)} {p : Prob K} (hr : Rep c1 c2 cs p) (hpos : PosB p) (hneg : NegB p) :
    Answer c1 c2 cs (finishDirect 0 p) := by
  unfold finishDirect
  rcases hd : direct 0 p with _ | ⟨x, e⟩
  · dsimp only
    rintro ⟨x1, x2, hs⟩
    obtain ⟨h1, h2⟩ := (hr.sat x1 x2).mp hs
    obtain ⟨x, y, h3, _⟩ := direct_complete p hpos hneg _ _ h1 h2
    rw [hd] at h3; cases h3
  · dsimp only
    obtain ⟨y, rfl, h1, h2⟩ := direct_finite p hpos.ne hd
    refine answer_of_best hc2 hr p hr.e1 hr.e2 x y h1 h2 ?_
    intro x' y' h3 h4
    obtain ⟨x'', y'', h5, _, _, h6⟩ := direct_complete p hpos hneg _ _ h3 h4
    rw [hd] at h5
    simp only [Option.some.injEq, Prod.mk.injEq, fin_inj] at h5
    rw [h5.2]; exact h6

/-- The flag of determinacy is set whenever the two others are. -/
theorem WF.determinate {p : Prob K} (h : WF p) (hp : p.pos = true) : p.det = true := by
  by_contra hd
  obtain ⟨h1, h2, h3, h4⟩ := h.det (by simpa using hd)
  rcases h.pos hp with ⟨l, hl, hlt⟩ | ⟨_, a, ha⟩ | ⟨u, hu, l, hl, hlt⟩
  · rw [h2 l hl] at hlt; exact lt_irrefl _ hlt
  · rw [h4] at ha; exact absurd ha.symm (ne_of_lt (fin_lt_top a))
  · rw [h1 u hu, h2 l hl] at hlt; exact lt_irrefl _ hlt

theorem check_spec {p : Prob K} (h : WF p) : (check p = some .infinite ∧ ¬ (p.pos = true ∧ p.neg = true)) ∨ (check p = none ∧ p.pos = true ∧ p.neg = true) := by
  unfold check
  by_cases hb : (p.pos && p.neg) = true
  · have hb' := hb
    rw [Bool.and_eq_true] at hb'
    rw [hb, h.determinate hb'.1]
    exact Or.inr ⟨rfl, hb'⟩
  · have hb' : (p.pos && p.neg) = false := by simpa using hb
    rw [Bool.and_eq_true] at hb
    rw [hb']
    exact Or.inl ⟨rfl, hb⟩

/-- **The direct solver is exact.**  Whatever constraints are added, in whatever order, a solution it gives is an optimum of the user's problem, a problem
it reports as unsolvable has no admissible point, and nothing is undefined. -/
theorem zLPMegiddoDyerSolveDirect_correct_partial {c1 c2 : K} (hc2 : c2 ≠ 0) (cs : List (K × K × K)) (hc : ∀ c ∈ cs, c.1 ≠ 0 ∨ c.2.1 ≠ 0) :
    Answer c1 c2 cs (zLPMegiddoDyerSolveDirect 0 (problem 0 c1 c2 cs)) := by
  obtain ⟨h, hr⟩ := problem_spec hc2 cs hc
  unfold zLPMegiddoDyerSolveDirect
  rcases check_spec h with ⟨he, _⟩ | ⟨he, h1, h2⟩
  · rw [he]; trivial
  · rw [he]; exact finishDirect_correct hc2 hr (h.pos h1) (h.neg h2)

example : zLPMegiddoDyerSolveDirect (0 : ℚ) (problem 0 1 2 [(-1, 0, 0), (0, -1, 0), (-1, -1, -3), (-3, -1, -5), (1, 1, 10)]) = .solved 3 0 3 := by decide +kernel
example : zLPMegiddoDyerSolveDirect (0 : ℚ) (problem 0 1 2 [(-1, 0, 0), (0, -1, 0), (1, 1, -1)]) = .unsolvable := by decide +kernel

/-- With the tolerance of the code: what the direct search ends in satisfies every stored constraint within the tolerance. -/
theorem direct_within_tol (tol : K) (p : Prob K) (hne : p.lower ≠ []) {x : K} {e : Ext K} (h : direct tol p = some (x, e)) :
    ∃ y, e = fin y ∧ (∀ u ∈ p.upper, y ≤ val u x + tol) ∧ (∀ l ∈ p.lower, val l x - tol ≤ y) ∧ (∀ a, p.xmin = fin a → a - tol ≤ x) ∧
      (∀ a, p.xmax = fin a → x ≤ a + tol) := by
  obtain ⟨hf, htop⟩ := direct_sound tol p x e h
  simp only [feasible, Bool.and_eq_true, decide_eq_true_eq] at hf
  obtain ⟨⟨⟨h1, h2⟩, h3⟩, h4⟩ := hf
  have hsh : ∀ a t : K, shift (fin a) t = fin (a + t) := fun _ _ => rfl
  obtain ⟨c, hc, hv⟩ := lowerVal_mem p.lower x hne
  rcases ext_cases e with h | h | ⟨y, h⟩
  · subst h
    rw [hv, hsh] at h4
    exact absurd (lt_of_lt_of_le (bot_lt_fin _) h4) (lt_irrefl _)
  · exact absurd h htop
  · subst h
    refine ⟨y, rfl, fun u hu => ?_, fun l hl => ?_, fun a ha => ?_, fun a ha => ?_⟩
    · have h5 := (le_upperVal p.upper x _).mp le_rfl u hu
      rcases ext_cases (upperVal p.upper x) with h | h | ⟨b, h⟩
      · rw [h] at h3; exact absurd (lt_of_lt_of_le (bot_lt_fin _) h3) (lt_irrefl _)
      · rw [h] at h5; exact absurd (lt_of_le_of_lt h5 (fin_lt_top _)) (lt_irrefl _)
      · rw [h, hsh, fin_le] at h3
        rw [h, fin_le] at h5
        linarith
    · have h5 := (lowerVal_le p.lower x _).mp le_rfl l hl
      rw [hv, fin_le] at h5
      rw [hv, hsh, fin_le] at h4
      linarith
    · rw [ha, hsh, fin_le] at h1; linarith
    · rw [ha, hsh, fin_le] at h2; exact h2

/-! ## Refusals -/

theorem exists_max_slope (L : List (Cell K)) (h : L ≠ []) : ∃ l ∈ L, ∀ c ∈ L, c.m ≤ l.m := by
  obtain ⟨a, ha, hmin⟩ := exists_min_list (L.map fun c => -c.m) (by simpa using h)
  obtain ⟨l, hl, rfl⟩ := List.mem_map.mp ha
  refine ⟨l, hl, fun c hc => ?_⟩
  have := hmin (-c.m) (List.mem_map_of_mem hc)
  linarith

theorem exists_min_slope (L : List (Cell K)) (h : L ≠ []) : ∃ l ∈ L, ∀ c ∈ L, l.m ≤ c.m := by
  obtain ⟨a, ha, hmin⟩ := exists_min_list (L.map fun c => c.m) (by simpa using h)
  obtain ⟨l, hl, rfl⟩ := List.mem_map.mp ha
  exact ⟨l, hl, fun c hc => hmin _ (List.mem_map_of_mem hc)⟩

theorem not_posB_step (p : Prob K) (hx : p.xmax ≠ ⊥) (h : ¬ PosB p) (x y : K) (hr : InR p x) (hf : Feas p.upper p.lower x y) :
    ∃ x' y', InR p x' ∧ Feas p.upper p.lower x' y' ∧ y' ≤ y ∧ (x', y') ≠ (x, y) := by
  by_cases hne : p.lower = []
  · refine ⟨x, y - 1, hr, ⟨fun u hu => le_trans (by linarith) (hf.1 u hu), by rw [hne]; simp⟩, by linarith, ?_⟩
    intro h'; simp at h'
  · obtain ⟨l, hl, hmax⟩ := exists_max_slope p.lower hne
    have htop : p.xmax = ⊤ := by
      rcases ext_cases p.xmax with h' | h' | ⟨a, h'⟩
      · exact absurd h' hx
      · exact h'
      · exact absurd (Or.inr (Or.inl ⟨hne, a, h'⟩)) h
    have hm : l.m ≤ 0 := not_lt.mp fun h' => h (Or.inl ⟨l, hl, h'⟩)
    refine ⟨x + 1, y + l.m, ⟨le_trans hr.1 (by simp), by rw [htop]; exact le_of_lt (fin_lt_top _)⟩, ⟨?_, ?_⟩, by linarith, ?_⟩
    · intro u hu
      have h1 : l.m ≤ u.m := not_lt.mp fun h' => h (Or.inr (Or.inr ⟨u, hu, l, hl, h'⟩))
      have h2 := hf.1 u hu
      have h3 := val_sub u (x + 1) x
      linarith
    · intro c hc
      have h1 := hmax c hc
      have h2 := hf.2 c hc
      have h3 := val_sub c (x + 1) x
      linarith
    · intro h'; simp at h'

theorem not_negB_step (p : Prob K) (hx : p.xmin ≠ ⊤) (h : ¬ NegB p) (x y : K) (hr : InR p x) (hf : Feas p.upper p.lower x y) :
    ∃ x' y', InR p x' ∧ Feas p.upper p.lower x' y' ∧ y' ≤ y ∧ (x', y') ≠ (x, y) := by
  by_cases hne : p.lower = []
  · refine ⟨x, y - 1, hr, ⟨fun u hu => le_trans (by linarith) (hf.1 u hu), by rw [hne]; simp⟩, by linarith, ?_⟩
    intro h'; simp at h'
  · obtain ⟨l, hl, hmin⟩ := exists_min_slope p.lower hne
    have hbot : p.xmin = ⊥ := by
      rcases ext_cases p.xmin with h' | h' | ⟨a, h'⟩
      · exact h'
      · exact absurd h' hx
      · exact absurd (Or.inr (Or.inl ⟨hne, a, h'⟩)) h
    have hm : 0 ≤ l.m := not_lt.mp fun h' => h (Or.inl ⟨l, hl, h'⟩)
    refine ⟨x - 1, y - l.m, ⟨by rw [hbot]; exact bot_le, le_trans (by simp) hr.2⟩, ⟨?_, ?_⟩, by linarith, ?_⟩
    · intro u hu
      have h1 : u.m ≤ l.m := not_lt.mp fun h' => h (Or.inr (Or.inr ⟨u, hu, l, hl, h'⟩))
      have h2 := hf.1 u hu
      have h3 := val_sub u (x - 1) x
      linarith
    · intro c hc
      have h1 := hmin c hc
      have h2 := hf.2 c hc
      have h3 := val_sub c (x - 1) x
      linarith
    · intro h'; simp at h'

/-- The flags are exact after constraints on both variables. -/
theorem addAll_flags {c1 c2 : K} (hc2 : c2 ≠ 0) : ∀ (cs ds : List (K × K × K)) (p : Prob K), WF p → Rep c1 c2 ds p → (∀ c ∈ cs, c.2.1 ≠ 0) →
    (p.pos = true ↔ PosB p) → (p.neg = true ↔ NegB p) →
    ((addAll 0 p cs).pos = true ↔ PosB (addAll 0 p cs)) ∧ ((addAll 0 p cs).neg = true ↔ NegB (addAll 0 p cs))
  | [], _, _, _, _, _, h1, h2 => ⟨h1, h2⟩
  | (a1, a2, b) :: cs, ds, p, h, hr, hc, _, _ => by
    obtain ⟨h1, h2, h3⟩ := addConstraint_spec hc2 h hr a1 a2 b (Or.inr (hc _ List.mem_cons_self))
    obtain ⟨h4, h5, _⟩ := h3 (hc _ List.mem_cons_self)
    exact addAll_flags hc2 cs (ds ++ [(a1, a2, b)]) _ h1 h2 (fun c hcs => hc c (List.mem_cons_of_mem _ hcs)) h4 h5

theorem addAll_append (tol : K) : ∀ (cs ds : List (K × K × K)) (p : Prob K), addAll tol p (cs ++ ds) = addAll tol (addAll tol p cs) ds
  | [], _, _ => rfl
  | (_, _, _) :: cs, ds, p => addAll_append tol cs ds _

theorem addVerticals_lower {c1 c2 : K} (hc2 : c2 ≠ 0) : ∀ (cs ds : List (K × K × K)) (p : Prob K), WF p → Rep c1 c2 ds p →
    (∀ c ∈ cs, c.1 ≠ 0 ∧ c.2.1 = 0) → p.lower = [] → (addAll 0 p cs).lower = []
  | [], _, _, _, _, _, h => h
  | (a1, a2, b) :: cs, ds, p, h, hr, hc, hl => by
    have hc0 := hc _ List.mem_cons_self
    obtain ⟨h1, h2, _⟩ := addConstraint_spec hc2 h hr a1 a2 b (Or.inl hc0.1)
    refine addVerticals_lower hc2 cs (ds ++ [(a1, a2, b)]) _ h1 h2 (fun c hcs => hc c (List.mem_cons_of_mem _ hcs)) ?_
    obtain ⟨X, Y, d, he, _⟩ := addVertical_spec p h a1 b hc0.1
    unfold zLPMegiddoDyerAddConstraint
    rw [if_pos (by rw [abs_nonpos_iff]; exact hc0.2), if_neg (by rw [abs_nonpos_iff]; exact hc0.1), he]
    exact hl

theorem not_unique_of_step {c1 c2 : K} (hc2 : c2 ≠ 0) {cs : List (K × K × K)} {p : Prob K} (hr : Rep c1 c2 cs p)
    (hstep : ∀ x y, InR p x → Feas p.upper p.lower x y → ∃ x' y', InR p x' ∧ Feas p.upper p.lower x' y' ∧ y' ≤ y ∧ (x', y') ≠ (x, y))
    (x1 x2 : K) (ho : Optimal c1 c2 cs x1 x2) : ∃ z1 z2, (z1, z2) ≠ (x1, x2) ∧ Optimal c1 c2 cs z1 z2 := by
  obtain ⟨h1, h2⟩ := (hr.sat x1 x2).mp ho.1
  obtain ⟨x', y', h3, h4, h5, h6⟩ := hstep _ _ h1 h2
  have hy : c1 * x' + c2 * ((y' - c1 * x') / c2) = y' := by field_simp; ring
  refine ⟨x', (y' - c1 * x') / c2, ?_, sat_of_feas hc2 hr x' y' h3 h4, ?_⟩
  · intro heq
    simp only [Prod.mk.injEq] at heq
    apply h6
    rw [← heq.1, ← heq.2, hy]
  · intro z1 z2 hz
    rw [hy]
    exact le_trans h5 (ho.2 z1 z2 hz)

/-- **Refusals.**  If the constraints on the first variable alone come first, a problem refused as having infinitely many solutions does not have exactly one. -/
theorem zLPMegiddoDyerSolveDirect_infinite_partial {c1 c2 : K} (hc2 : c2 ≠ 0) (vs ls : List (K × K × K)) (hv : ∀ c ∈ vs, c.1 ≠ 0 ∧ c.2.1 = 0)
    (hl : ∀ c ∈ ls, c.2.1 ≠ 0) (h : zLPMegiddoDyerSolveDirect 0 (problem 0 c1 c2 (vs ++ ls)) = .infinite) (x1 x2 : K)
    (ho : Optimal c1 c2 (vs ++ ls) x1 x2) : ∃ z1 z2, (z1, z2) ≠ (x1, x2) ∧ Optimal c1 c2 (vs ++ ls) z1 z2 := by
  have hc : ∀ c ∈ vs ++ ls, c.1 ≠ 0 ∨ c.2.1 ≠ 0 := fun c hc => (List.mem_append.mp hc).elim (fun h => Or.inl (hv c h).1) fun h => Or.inr (hl c h)
  obtain ⟨hw, hr⟩ := problem_spec (c1 := c1) hc2 _ hc
  obtain ⟨hw0, hr0⟩ := init_wf c1 c2 hc2
  obtain ⟨hw1, hr1⟩ := problem_spec (c1 := c1) hc2 vs fun c hc => Or.inl (hv c hc).1
  have hlow : (problem 0 c1 c2 vs).lower = [] := addVerticals_lower hc2 vs [] _ hw0 hr0 hv (by
    unfold zLPMegiddoDyerSetCostCoefficient; split <;> rfl)
  have hnp : ¬ PosB (problem 0 c1 c2 vs) := fun h => h.ne hlow
  have hnn : ¬ NegB (problem 0 c1 c2 vs) := by
    rintro (⟨l, hl, _⟩ | ⟨h, _⟩ | ⟨_, _, l, hl, _⟩)
    · rw [hlow] at hl; cases hl
    · exact h hlow
    · rw [hlow] at hl; cases hl
  obtain ⟨hp, hn⟩ := addAll_flags hc2 ls vs _ hw1 hr1 hl ⟨hw1.pos, fun h => absurd h hnp⟩ ⟨hw1.neg, fun h => absurd h hnn⟩
  have heq : problem 0 c1 c2 (vs ++ ls) = addAll 0 (problem 0 c1 c2 vs) ls := addAll_append 0 vs ls _
  rw [← heq] at hp hn
  unfold zLPMegiddoDyerSolveDirect at h
  rcases check_spec hw with ⟨_, hb⟩ | ⟨he, h1, h2⟩
  · rw [hp, hn, not_and_or] at hb
    rcases hb with hb | hb
    · exact not_unique_of_step hc2 hr (fun x y => not_posB_step _ hw.xmax hb x y) x1 x2 ho
    · exact not_unique_of_step hc2 hr (fun x y => not_negB_step _ hw.xmin hb x y) x1 x2 ho
  · rw [he] at h
    have := finishDirect_correct hc2 hr (hw.pos h1) (hw.neg h2)
    dsimp only at h
    unfold finishDirect at h
    split at h
    · cases h
    · unfold finish at h
      split at h
      · cases h
      · split at h <;> cases h

example : zLPMegiddoDyerSolveDirect (0 : ℚ) (problem 0 0 1 ([(-1, 0, 0)] ++ [(0, -1, 0)])) = .infinite := by decide +kernel

/-- The order of the constraints matters: x1 ≥ 0, x2 ≥ x1 has the optimum (0, 0), which is found or refused depending on which constraint came first. -/
theorem zLPMegiddoDyerSolveDirect_infinite_violated :
    zLPMegiddoDyerSolveDirect (0 : ℚ) (problem 0 0 1 [(-1, 0, 0), (1, -1, 0)]) = .solved 0 0 0 ∧
    zLPMegiddoDyerSolveDirect (0 : ℚ) (problem 0 0 1 [(1, -1, 0), (-1, 0, 0)]) = .infinite ∧
    Optimal (0 : ℚ) 1 [(1, -1, 0), (-1, 0, 0)] 0 0 ∧ ∀ z1 z2, Optimal (0 : ℚ) 1 [(1, -1, 0), (-1, 0, 0)] z1 z2 → z1 = 0 ∧ z2 = 0 := by
  refine ⟨by decide +kernel, by decide +kernel, ?_, ?_⟩
  · refine ⟨by intro c hc; simp at hc; rcases hc with rfl | rfl <;> norm_num, ?_⟩
    intro z1 z2 hz
    have h1 := hz (1, -1, 0) (by simp)
    have h2 := hz (-1, 0, 0) (by simp)
    norm_num at h1 h2 ⊢
    linarith
  · intro z1 z2 hz
    have h1 := hz.1 (1, -1, 0) (by simp)
    have h2 := hz.1 (-1, 0, 0) (by simp)
    have h3 := hz.2 0 0 (by intro c hc; simp at hc; rcases hc with rfl | rfl <;> norm_num)
    norm_num at h1 h2 h3
    constructor <;> linarith

end Zm.MD
