import Verif.Model.ObjDRC
import Verif.Props.ObjMul
import Verif.Props.Mat

/-! # C239: products and transposition in place -/

set_option linter.unusedSectionVars false

namespace Zm.Obj
variable {K : Type*} [Field K] [LinearOrder K] [IsStrictOrderedRing K]

/-! ## Specification -/

/-- The vector after the product in place: `A v` or `Aᵀ v` if `A` is square and of the size of `v`; otherwise zero. -/
def mulIn (t : Bool) (A v : Arr K) : Arr K :=
  if A.rows = v.cols ∧ A.cols = v.cols then
    withEl v fun _ j => ∑ k ∈ Finset.range v.cols, (if t then A.el k j else A.el j k) * v.el 0 k
  else withEl v fun _ _ => 0

/-- The matrix after the transposition in place, with its margins. -/
def transIn (A : Arr K) : Arr K := ⟨A.ccap, A.rcap, A.cols, A.rows, fun i j => A.el j i⟩

/-- The values after one step.  `got` says whether memory was given out; without it the product in place changes nothing. -/
def dspec (tol : K) (got : Bool) (s : Vals K) (o : DOp K) : Vals K :=
  match o with
  | .base o => mspec tol got s o
  | .mulDRC t x y =>
    if (s.var x).1 = .mat ∧ (s.var y).1 = .vec ∧ got = true then
      match (s.var x).2 with
      | some A => s.upd y (mulIn t A)
      | none => s
    else s
  | .transDRC x => if (s.var x).1 = .mat then s.upd x transIn else s

/-- The obligation of the client. -/
def DFits (s : Vals K) (o : DOp K) : Prop :=
  match o with
  | .base o => MFits s o
  | _ => True

/-! ## A variable that is used for a while -/

theorem vals_upd_last (a : Vals K) (v : Kind × Option (Arr K)) (F : Arr K → Arr K) : Vals.upd (a ++ [v]) a.length F = a ++ [(v.1, v.2.map F)] := by
  unfold Vals.upd
  rw [vals_add, if_neg (lt_irrefl _), if_pos rfl, List.set_append_right _ _ (le_refl _), Nat.sub_self]
  rfl

theorem vals_upd_left (a : Vals K) (v : Kind × Option (Arr K)) (y : Nat) (hy : y < a.length) (F : Arr K → Arr K) : Vals.upd (a ++ [v]) y F = a.upd y F ++ [v] := by
  unfold Vals.upd
  rw [vals_add, if_pos hy, List.set_append_left _ _ hy]

/-- A last variable that is null may be forgotten. -/
theorem agrees_drop {s : Cl K} {a : Vals K} {k k' : Kind} {h : Hp K} (g : Agrees ⟨s.vars ++ [(k, none)], h⟩ (a ++ [(k', none)])) : Agrees { s with h := h } a := by
  have hl : s.vars.length = a.length := by have := g.length; simpa using this
  have e1 : ∀ x, (⟨s.vars ++ [(k, none)], h⟩ : Cl K).var x = if x < s.vars.length then s.var x else if x = s.vars.length then (k, none) else (.mat, none) :=
    fun x => var_add s k (none, h) x
  have e2 : ∀ x, Vals.var (a ++ [(k', none)]) x = if x < a.length then a.var x else if x = a.length then (k', none) else (.mat, none) := fun x => vals_add a _ x
  have v1 : ∀ x, ¬x < s.vars.length → s.var x = (.mat, none) := fun x hx => by
    unfold Cl.var; rw [List.getD_eq_getElem?_getD, List.getElem?_eq_none (by omega)]; rfl
  have v2 : ∀ x, ¬x < a.length → a.var x = (.mat, none) := fun x hx => by
    unfold Vals.var; rw [List.getD_eq_getElem?_getD, List.getElem?_eq_none (by omega)]; rfl
  have up : ∀ x p, (s.var x).2 = some p → ((⟨s.vars ++ [(k, none)], h⟩ : Cl K).var x) = s.var x := fun x p hx => by
    rw [e1, if_pos (var_lt s x p hx)]
  have down : ∀ x p, ((⟨s.vars ++ [(k, none)], h⟩ : Cl K).var x).2 = some p → (s.var x).2 = some p := fun x p hx => by
    rw [e1] at hx
    by_cases c : x < s.vars.length
    · rwa [if_pos c] at hx
    · rw [if_neg c] at hx
      by_cases c2 : x = s.vars.length
      · rw [if_pos c2] at hx; cases hx
      · rw [if_neg c2] at hx; cases hx
  refine ⟨hl, fun x => ?_, fun x => ?_, fun x p A hx hA => ?_, fun x p hx => ?_, fun x y p q hne hx hy => ?_, fun b hb => ?_, g.nodup, g.fresh⟩
  · show (s.var x).1 = _
    by_cases c : x < s.vars.length
    · have := g.kind x
      rwa [e1, e2, if_pos c, if_pos (hl ▸ c)] at this
    · rw [v1 x c, v2 x (hl ▸ c)]
  · show (s.var x).2 = none ↔ _
    by_cases c : x < s.vars.length
    · have := g.null x
      rwa [e1, e2, if_pos c, if_pos (hl ▸ c)] at this
    · rw [v1 x c, v2 x (hl ▸ c)]; exact ⟨fun _ => rfl, fun _ => rfl⟩
  · have c := var_lt s x p hx
    have := g.val x p A (by rw [up x p hx]; exact hx) (by rw [e2, if_pos (hl ▸ c)]; exact hA)
    rwa [up x p hx] at this
  · exact g.own x p (by rw [up x p hx]; exact hx)
  · exact g.disj x y p q hne (by rw [up x p hx]; exact hx) (by rw [up y q hy]; exact hy)
  · obtain ⟨x, p, hx, hp⟩ := g.all b hb
    exact ⟨x, p, down x p hx, hp⟩

/-! ## Steps -/

theorem mulIn_eq (t : Bool) (A v : Arr K) (i j : Nat) : (mulIn t A v).el i j =
    if i < v.rows ∧ j < v.cols then (if MulFits (if t then .mtv else .mv) A v v then mulEl (if t then .mtv else .mv) A v i j else 0) else v.el i j := by
  unfold mulIn
  cases t
  · by_cases h : A.rows = v.cols ∧ A.cols = v.cols
    · have h2 : MulFits .mv A v v := ⟨h.2, h.1.symm⟩
      rw [if_pos h]
      simp only [withEl, mulEl, h2, h.2, if_true, Bool.false_eq_true, if_false]
    · have h2 : ¬MulFits .mv A v v := fun c => h ⟨c.2.symm, c.1⟩
      simp only [if_neg h, withEl, h2, Bool.false_eq_true, if_false]
  · by_cases h : A.rows = v.cols ∧ A.cols = v.cols
    · have h2 : MulFits .mtv A v v := ⟨h.1, h.2.symm⟩
      rw [if_pos h]
      simp only [withEl, mulEl, h2, h.1, if_true]
    · have h2 : ¬MulFits .mtv A v v := fun c => h ⟨c.1, c.2.symm⟩
      simp only [if_neg h, withEl, h2, if_true, if_false]

theorem mulIn_el (t : Bool) (A v : Arr K) : mulIn t A v = { v with el := (mulIn t A v).el } := by unfold mulIn withEl; split <;> rfl

/-- The product in place. -/
theorem mulDRC_ok (t : Bool) (avail : Nat → Bool) {s : Cl K} {a : Vals K} (g : Agrees s a) {x y p q : Nat} {A v : Arr K} (hx : (s.var x).2 = some p)
    (hy : (s.var y).2 = some q) (hA : (a.var x).2 = some A) (hv : (a.var y).2 = some v) (k2 : (s.var y).1 = .vec) :
    (∃ h', zMulMatVecDRC t avail p q s.h = .ok (h', true) ∧ 0 < v.cols ∧ Agrees { s with h := h' } (a.upd y (mulIn t A))) ∨
    (∃ h', zMulMatVecDRC t avail p q s.h = .ok (h', false) ∧ Agrees { s with h := h' } a ∧ (v.cols = 0 ∨ Refused avail s.h)) := by
  have vd := g.valid y q v hy hv
  have wv := g.val y q v hy hv
  have r1 := (wv.vec (Or.inl k2)).1
  unfold zMulMatVecDRC
  simp only [vd.hd, Res.bind]
  rw [zVecAlloc_eq]
  rcases zMatAlloc_cases avail 1 v.cols s.h with ⟨h', e, hs, hr⟩ | ⟨h1, e, hm⟩
  · right
    rw [e]
    exact ⟨h', rfl, agrees_drop (agrees_add_none g .vec h' hs), hr.imp_left (by simp)⟩
  left
  rw [e]
  simp only
  have g1 := agrees_add_some g .vec hm (fun _ _ => (0 : K)) (fun _ _ _ _ => rfl) (fun _ => rfl)
  have lx := var_lt s x p hx
  have ly := var_lt s y q hy
  have hl := g.length
  have hx1 : ((s.add .vec (some s.h.next, h1)).var x) = s.var x := by rw [var_add, if_pos lx]
  have hy1 : ((s.add .vec (some s.h.next, h1)).var y) = s.var y := by rw [var_add, if_pos ly]
  have hz1 : ((s.add .vec (some s.h.next, h1)).var s.vars.length) = (.vec, some s.h.next) := by rw [var_add, if_neg (lt_irrefl _), if_pos rfl]
  have hA1 : Vals.var (a ++ [(.vec, some ⟨1, v.cols, 1, v.cols, fun _ _ => (0 : K)⟩)]) x = a.var x := by rw [vals_add, if_pos (hl ▸ lx)]
  have hv1 : Vals.var (a ++ [(.vec, some ⟨1, v.cols, 1, v.cols, fun _ _ => (0 : K)⟩)]) y = a.var y := by rw [vals_add, if_pos (hl ▸ ly)]
  have hC1 : Vals.var (a ++ [(.vec, some ⟨1, v.cols, 1, v.cols, fun _ _ => (0 : K)⟩)]) s.vars.length = (.vec, some ⟨1, v.cols, 1, v.cols, fun _ _ => (0 : K)⟩) := by
    rw [vals_add, if_neg (by omega), if_pos hl]
  have kk : prdKind (if t then .mtv else .mv) = .vec := by cases t <;> rfl
  obtain ⟨b1, b2⟩ := mul_filled g1 (if t then .mtv else .mv) (x := x) (y := y) (z := s.vars.length) (p1 := p) (p2 := q) (p := s.h.next)
    (A := A) (B := v) (C := ⟨1, v.cols, 1, v.cols, fun _ _ => (0 : K)⟩) (by rw [hx1]; exact hx) (by rw [hy1]; exact hy) (by rw [hz1])
    (by rw [hA1]; exact hA) (by rw [hv1]; exact hv) (by rw [hC1]) (by rw [hy1, k2, kk]) (by rw [hz1, kk]) (by omega) (by omega)
  have fits : MulFits (if t then .mtv else .mv) A v ⟨1, v.cols, 1, v.cols, fun _ _ => (0 : K)⟩ ↔ MulFits (if t then .mtv else .mv) A v v := by
    cases t <;> exact Iff.rfl
  -- after the product
  have key : ∃ h2 ok, prd (if t then .mtv else .mv) p q s.h.next h1 = .ok (h2, ok) ∧ Agrees { s.add .vec (some s.h.next, h1) with h := h2 }
      (a ++ [(.vec, some (withEl ⟨1, v.cols, 1, v.cols, fun _ _ => (0 : K)⟩ fun i j =>
        if MulFits (if t then .mtv else .mv) A v v then mulEl (if t then .mtv else .mv) A v i j else 0))]) := by
    by_cases hs : MulFits (if t then .mtv else .mv) A v v
    · obtain ⟨h2, e2, f2⟩ := b1 (fits.2 hs)
      refine ⟨h2, true, e2, ?_⟩
      have := agrees_withEl g1 s.vars.length s.h.next _ (by rw [hz1]) (by rw [hC1]) h2 _
        (fun i j => if MulFits (if t then .mtv else .mv) A v v then mulEl (if t then .mtv else .mv) A v i j else 0) f2
        (fun i j _ _ => by rw [if_pos hs]) (fun C => withEl C fun i j => if MulFits (if t then .mtv else .mv) A v v then mulEl (if t then .mtv else .mv) A v i j else 0) rfl
      rw [hl, vals_upd_last] at this
      exact this
    · refine ⟨h1, false, b2 (fun c => hs (fits.1 c)), ?_⟩
      have ew : (withEl ⟨1, v.cols, 1, v.cols, fun _ _ => (0 : K)⟩ fun i j =>
          if MulFits (if t then .mtv else .mv) A v v then mulEl (if t then .mtv else .mv) A v i j else 0) = ⟨1, v.cols, 1, v.cols, fun _ _ => (0 : K)⟩ := by
        unfold withEl
        simp only [if_neg hs, ite_self]
      rw [ew]
      exact g1
  obtain ⟨h2, ok, e2, g2⟩ := key
  rw [e2]
  simp only
  generalize hT : (withEl ⟨1, v.cols, 1, v.cols, fun _ _ => (0 : K)⟩ fun i j =>
        if MulFits (if t then .mtv else .mv) A v v then mulEl (if t then .mtv else .mv) A v i j else 0) = T at g2
  have T1 : T.rows = 1 := by rw [← hT]; rfl
  have T2 : T.cols = v.cols := by rw [← hT]; rfl
  have T3 : T.rcap = 1 := by rw [← hT]; rfl
  have T4 : T.ccap = v.cols := by rw [← hT]; rfl
  have hv2 : Vals.var (a ++ [(.vec, some T)]) y = a.var y := by rw [vals_add, if_pos (hl ▸ ly)]
  have hC2 : Vals.var (a ++ [(.vec, some T)]) s.vars.length = (.vec, some T) := by rw [vals_add, if_neg (by omega), if_pos hl]
  have hy2 : ((⟨(s.add .vec (some s.h.next, h1)).vars, h2⟩ : Cl K).var y).2 = some q := by
    show ((s.add .vec (some s.h.next, h1)).var y).2 = _
    rw [hy1]; exact hy
  have hz2 : ((⟨(s.add .vec (some s.h.next, h1)).vars, h2⟩ : Cl K).var s.vars.length).2 = some s.h.next := by
    show ((s.add .vec (some s.h.next, h1)).var s.vars.length).2 = _
    rw [hz1]
  have u1 := g2.valid s.vars.length s.h.next T hz2 (by rw [hC2])
  have u2 := g2.valid y q v hy2 (by rw [hv2]; exact hv)
  have uT := g2.val s.vars.length s.h.next T hz2 (by rw [hC2])
  have dj := (g2.disj s.vars.length y s.h.next q (by omega) hz2 hy2).2.2
  rw [T1, T2] at u1
  rw [r1] at u2
  obtain ⟨h3, e3, f3⟩ := matCopyNC_ok u1 u2 dj
  rw [vecCopyNC_eq u1 u2, e3]
  simp only
  have g3 := agrees_fill g2 y q v hy2 (by rw [hv2]; exact hv) h3 _ (mulIn t A v).el (by rw [r1]; exact f3) (fun i j hi hj => by
    rw [mulIn_eq]
    by_cases c : i < v.rows ∧ j < v.cols
    · rw [if_pos c, if_pos c]
      have el := uT.el i j (by omega) (by omega)
      refine Eq.trans ?_ el.symm
      rw [← hT]
      simp only [withEl]
      rw [if_pos (⟨by omega, c.2⟩ : i < 1 ∧ j < v.cols)]
    · rw [if_neg c, if_neg c]) (mulIn t A) (mulIn_el t A v)
  rw [vals_upd_left _ _ _ (hl ▸ ly)] at g3
  obtain ⟨h4, e4, g4⟩ := agrees_free g3 s.vars.length
  have hz3 : ((⟨(s.add .vec (some s.h.next, h1)).vars, h3⟩ : Cl K).var s.vars.length).2 = some s.h.next := hz2
  have e4' : zMatFree h3 (some s.h.next) = .ok h4 := by rw [← e4]; exact congrArg (zMatFree h3) hz3.symm
  rw [e4']
  refine ⟨h4, rfl, by have := hm.pos; omega, ?_⟩
  have sv : ∀ k : Kind, (s.add .vec (some s.h.next, h1)).vars.set s.vars.length (k, none) = s.vars ++ [(k, none)] := fun k => by
    show (s.vars ++ [_]).set s.vars.length _ = _
    rw [List.set_append_right _ _ (le_refl _), Nat.sub_self]; rfl
  have sa : ∀ k : Kind, (a.upd y (mulIn t A) ++ [(Kind.vec, some T)]).set s.vars.length (k, none) = a.upd y (mulIn t A) ++ [(k, none)] := fun k => by
    have : s.vars.length = (a.upd y (mulIn t A)).length := by unfold Vals.upd; rw [List.length_set]; exact hl
    rw [this, List.set_append_right _ _ (le_refl _), Nat.sub_self]; rfl
  simp only [sv, sa] at g4
  exact agrees_drop g4

/-- The transposition in place. -/
theorem transDRC_ok {s : Cl K} {a : Vals K} (g : Agrees s a) {x p : Nat} {A : Arr K} (hx : (s.var x).2 = some p) (hA : (a.var x).2 = some A) (k1 : (s.var x).1 = .mat) :
    ∃ h', zMatTDRC p s.h = .ok h' ∧ Agrees { s with h := h' } (a.upd x transIn) := by
  have v := g.valid x p A hx hA
  have w := g.val x p A hx hA
  obtain ⟨e, he, _, hw, _⟩ := RawMat.zRawMatTDRC_correct (⟨s.h.len (buf s.h p), s.h.dat (buf s.h p)⟩ : Mem K) 0 A.rcap A.ccap (A.rcap * A.ccap + 1)
    (by rw [Nat.zero_add]; exact w.len.ge) (Nat.lt_succ_self _)
  unfold zMatTDRC
  simp only [v.hd, Res.bind, bufOf, if_pos v.bl, he]
  refine ⟨_, rfl, ?_⟩
  rw [upd_some a x transIn A hA]
  refine agrees_set g x p _ _ hx rfl rfl (fun q hq => if_neg hq) (by unfold buf; simp) rfl (fun b hb => if_neg hb) ?_
  have eb : buf ({ s.h with dat := fun b' => if b' = buf s.h p then e.val else s.h.dat b', hdr := fun q => if q = p then ⟨some (buf s.h p), A.ccap, A.rcap, A.cols, A.rows⟩ else s.h.hdr q } : Hp K) p
      = buf s.h p := by unfold buf; simp
  refine ⟨by rw [eb]; simp [transIn], ?_, fun i j hi hj => ?_, w.cols, w.rows, fun h => ?_, fun h => ?_, ?_⟩
  · rw [eb]; exact w.len.trans (Nat.mul_comm _ _)
  · rw [eb]
    simp only [if_true, transIn] at hi hj ⊢
    have h1 := hw i j hi hj
    simp only [Nat.zero_add] at h1
    rw [h1]
    exact w.el j i hj hi
  · rw [k1] at h; simp at h
  · rw [k1] at h; simp at h
  · show 0 < A.ccap * A.rcap
    rw [Nat.mul_comm]; exact w.pos

theorem mulIn_empty (t : Bool) (A v : Arr K) (h : v.cols = 0) : mulIn t A v = v := by
  rw [mulIn_el]
  have : (mulIn t A v).el = v.el := by funext i j; rw [mulIn_eq, if_neg (by omega)]
  rw [this]

/-- One step of a client. -/
theorem dstep_ok (tol : K) (avail : Nat → Bool) {s : Cl K} {a : Vals K} (g : Agrees s a) (o : DOp K) (hf : DFits a o) :
    ∃ s' got, dstep tol avail s o = .ok s' ∧ Agrees s' (dspec tol got a o) ∧ (got = false → Refused avail s.h) := by
  cases o with
  | base o => exact mstep_ok tol avail g o hf
  | mulDRC t x y =>
    simp only [dstep, dspec]
    rw [← g.kind x, ← g.kind y]
    by_cases hk : (s.var x).1 = .mat ∧ (s.var y).1 = .vec
    · rw [if_pos hk]
      cases hx : (s.var x).2 with
      | none => exact ⟨s, true, rfl, by rw [if_pos ⟨hk.1, hk.2, rfl⟩, (g.null x).1 hx]; exact g, by simp⟩
      | some p =>
        obtain ⟨A, hA⟩ := g.some hx
        cases hy : (s.var y).2 with
        | none => exact ⟨s, true, rfl, by rw [if_pos ⟨hk.1, hk.2, rfl⟩, hA]; simp only; rw [upd_none _ _ _ ((g.null y).1 hy)]; exact g, by simp⟩
        | some q =>
          obtain ⟨v, hv⟩ := g.some hy
          rcases mulDRC_ok t avail g hx hy hA hv hk.2 with ⟨h', e, _, ag⟩ | ⟨h', e, ag, hr⟩
          · exact ⟨{ s with h := h' }, true, by simp only [e, Res.bind], by rw [if_pos ⟨hk.1, hk.2, rfl⟩, hA]; exact ag, by simp⟩
          · by_cases h0 : v.cols = 0
            · refine ⟨{ s with h := h' }, true, by simp only [e, Res.bind], ?_, by simp⟩
              rw [if_pos ⟨hk.1, hk.2, rfl⟩, hA]
              exact upd_id ag y _ (fun C hC => by rw [hv] at hC; cases hC; exact mulIn_empty t A v h0)
            · exact ⟨{ s with h := h' }, false, by simp only [e, Res.bind], by rw [if_neg (by simp)]; exact ag, fun _ => hr.resolve_left h0⟩
    · rw [if_neg hk]
      exact ⟨s, true, rfl, by rw [if_neg (fun c => hk ⟨c.1, c.2.1⟩)]; exact g, by simp⟩
  | transDRC x =>
    simp only [dstep, dspec]
    rw [← g.kind x]
    by_cases hk : (s.var x).1 = .mat
    · rw [if_pos hk, if_pos hk]
      cases hx : (s.var x).2 with
      | none => exact ⟨s, true, rfl, by rw [upd_none _ _ _ ((g.null x).1 hx)]; exact g, by simp⟩
      | some p =>
        obtain ⟨A, hA⟩ := g.some hx
        obtain ⟨h', e, ag⟩ := transDRC_ok g hx hA hk
        exact ⟨{ s with h := h' }, true, by simp only [e, Res.bind], ag, by simp⟩
    · rw [if_neg hk, if_neg hk]
      exact ⟨s, true, rfl, g, by simp⟩

/-! ## Histories -/

/-- The values along a history. -/
def dspecRun (tol : K) : List (DOp K) → List Bool → Vals K → Vals K
  | o :: l, b :: bs, a => dspecRun tol l bs (dspec tol b a o)
  | _, _, a => a

/-- The obligations of the client along a history, whether memory is given out or not. -/
def DAllFit (tol : K) : List (DOp K) → Vals K → Prop
  | [], _ => True
  | o :: l, a => DFits a o ∧ ∀ got, DAllFit tol l (dspec tol got a o)

theorem drun_ok (tol : K) (avail : Nat → Bool) (l : List (DOp K)) : ∀ (s : Cl K) (a : Vals K), Agrees s a → DAllFit tol l a →
    ∃ s' gots, drun tol avail l s = .ok s' ∧ gots.length = l.length ∧ Agrees s' (dspecRun tol l gots a) ∧ ((∀ n, avail n = true) → ∀ b ∈ gots, b = true) := by
  induction l with
  | nil => intro s a g _; exact ⟨s, [], rfl, rfl, g, by simp⟩
  | cons o l ih =>
    intro s a g hf
    obtain ⟨s1, got, e, g1, hr⟩ := dstep_ok tol avail g o hf.1
    obtain ⟨s2, gots, e2, hl, g2, hr2⟩ := ih s1 _ g1 (hf.2 got)
    refine ⟨s2, got :: gots, by simp only [drun, e, Res.bind, e2], by simp [hl], g2, ?_⟩
    intro ha b hb
    rcases List.mem_cons.1 hb with rfl | hb
    · cases h : b
      · rcases hr h with h1 | h1 <;> rw [ha] at h1 <;> cases h1
      · rfl
    · exact hr2 ha b hb

/-- C239: the functions in place, in any history: no undefined behaviour, no temporary object is left behind, a vector is replaced by its product unless memory is refused,
and a matrix by its transpose with exchanged margins.  That the variables own exactly the live blocks is part of `Agrees`. -/
theorem place_history (tol : K) (avail : Nat → Bool) (l : List (DOp K)) (t next : Nat) (hdr : Nat → Hdr) (len : Nat → Nat) (d : Nat → Nat → K) (hf : DAllFit tol l []) :
    ∃ s gots, drun tol avail l ⟨[], ⟨t, next, [], hdr, len, d⟩⟩ = .ok s ∧ gots.length = l.length ∧ Agrees s (dspecRun tol l gots []) ∧
      ((∀ n, avail n = true) → ∀ b ∈ gots, b = true) :=
  drun_ok tol avail l _ _ (agrees_empty d hdr len t next) hf

/-- C239: a matrix that does not fit is not refused: the vector is zeroed, and the answer is the vector. -/
theorem mulDRC_mismatch (t : Bool) (avail : Nat → Bool) {s : Cl K} {a : Vals K} (g : Agrees s a) {x y p q : Nat} {A v : Arr K} (hx : (s.var x).2 = some p)
    (hy : (s.var y).2 = some q) (hA : (a.var x).2 = some A) (hv : (a.var y).2 = some v) (k2 : (s.var y).1 = .vec) (hav : ∀ n, avail n = true) (hpos : 0 < v.cols)
    (hm : ¬(A.rows = v.cols ∧ A.cols = v.cols)) :
    ∃ h', zMulMatVecDRC t avail p q s.h = .ok (h', true) ∧ Agrees { s with h := h' } (a.upd y fun v => withEl v fun _ _ => 0) := by
  rcases mulDRC_ok t avail g hx hy hA hv k2 with ⟨h', e, _, ag⟩ | ⟨h', e, _, hr⟩
  · refine ⟨h', e, ?_⟩
    rw [upd_some _ _ _ _ hv] at ag ⊢
    unfold mulIn at ag
    rw [if_neg hm] at ag
    exact ag
  · rcases hr with h | h | h
    · omega
    · rw [hav] at h; cases h
    · rw [hav] at h; cases h

/-! ## Not vacuous -/

def exPlace : List (DOp ℚ) := [.base (.base (.base (.create .mat 2 3 [1, 2, 9, 3, 4, 8]))), .transDRC 0, .base (.base (.base (.resize 0 2 2))),
  .base (.base (.base (.create .vec 1 2 [5, 7]))), .mulDRC false 0 1, .mulDRC true 0 1, .transDRC 0, .base (.base (.base (.resize 0 2 3)))]

def exPlaceRead : Res (List ℚ) :=
  (drun 0 (fun _ => true) exPlace ⟨[], ⟨0, 0, [], fun _ => {}, fun _ => 0, fun _ _ => 7⟩⟩).bind fun s =>
  match (s.var 0).2, (s.var 1).2 with
  | some p, some q => (zMatElem p 0 2 s.h).bind fun a => (zMatElem p 1 0 s.h).bind fun b => (zMatElem p 1 2 s.h).bind fun c => (zMatElem q 0 0 s.h).bind fun d =>
    (zMatElem q 0 1 s.h).bind fun e => .ok [a, b, c, d, e, s.h.live.length]
  | _, _ => .fail

example : DAllFit 0 exPlace ([] : Vals ℚ) := by
  simp [DAllFit, DFits, MFits, AFits, Fits, exPlace, rowsOf]

/-- `Aᵀ = [1 3; 2 4]`, `Aᵀ (5 7) = (26 38)`, `A (26 38) = (102 230)`; four blocks are live. -/
example : exPlaceRead = .ok [9, 3, 8, 102, 230, 4] := by decide +kernel

end Zm.Obj
