import Verif.Model.ObjMisc
import Verif.Props.ObjPart

/-! # C243: diagonal matrices, shifts, exchange of elements and arrays of vectors -/

set_option linter.unusedSectionVars false

namespace Zm.Obj
variable {K : Type*} [Field K] [LinearOrder K] [IsStrictOrderedRing K]

/-! ## Specification -/

/-- The number of elements of a variable, if it is not null. -/
def Vals.size (s : Vals K) (x : Nat) : Option Nat := (s.var x).2.map Arr.cols

/-- Copies of a vector in the variables of an array. -/
def fillVals (V : Arr K) : List Nat → Vals K → Vals K
  | [], s => s
  | x :: l, s => fillVals V l (s.upd x fun C => withEl C fun _ j => V.el 0 j)

open Classical in
/-- The values after one step. -/
noncomputable def qspec (tol : K) (got : Bool) (s : Vals K) (o : QOp K) : Vals K :=
  match o with
  | .base o => pspec tol got s o
  | .diag x z =>
    if (s.var x).1 = .vec ∧ (s.var z).1 = .mat then
      match (s.var x).2 with
      | some A => s.upd z fun C => if C.rows = C.cols ∧ A.cols = C.cols then withEl C (fun i j => if i = j then A.el 0 i else 0) else C
      | none => s
    else s
  | .vshift c x z =>
    if (s.var x).1 = .vec ∧ (s.var z).1 = .vec then
      match (s.var x).2 with
      | some A => s.upd z fun C => withEl C (fun _ j => if j < A.cols then A.el 0 j + c else C.el 0 j)
      | none => s
    else s
  | .mshift c x => if (s.var x).1 = .mat then s.upd x fun C => withEl C (fun i j => if i = j then C.el i j + c else C.el i j) else s
  | .vswap x i1 i2 => if (s.var x).1 = .vec then s.upd x fun C => if i1 < C.cols ∧ i2 < C.cols then withEl C (fun i j => C.el i (swapIx i1 i2 j)) else C else s
  | .fill xs v =>
    match (s.var v).2 with
    | some V => if (∀ x ∈ xs, s.size x ≠ none) ∧ (∀ x ∈ xs, s.size x = some V.cols) then fillVals V xs s else s
    | none => s

/-- The obligations of the client: the destination of a shift is not smaller than the source; a matrix that is shifted has no more rows than columns; positions that are
exchanged are not the size itself; an array has vectors, all of one size, and the vector is not among them. -/
def QFits (s : Vals K) (o : QOp K) : Prop :=
  match o with
  | .base o => PFits s o
  | .vshift _ x z => ∀ A C, (s.var x).2 = some A → (s.var z).2 = some C → A.cols ≤ C.cols
  | .mshift _ x => ∀ C, (s.var x).2 = some C → C.rows ≤ C.cols
  | .vswap x i1 i2 => ∀ C, (s.var x).2 = some C → i1 < C.cols ∧ i2 < C.cols ∨ C.cols < i1 ∨ C.cols < i2
  | .fill xs v => xs ≠ [] ∧ v ∉ xs ∧ (s.var v).1 = .vec ∧ (∀ x ∈ xs, (s.var x).1 = .vec) ∧ ∀ x ∈ xs, ∀ y ∈ xs, s.size x = s.size y
  | _ => True

/-! ## Functions -/

theorem diag_filled {s : Cl K} {a : Vals K} (g : Agrees s a) {x z p q : Nat} {A C : Arr K} (hx : (s.var x).2 = some p) (hz : (s.var z).2 = some q)
    (hA : (a.var x).2 = some A) (hC : (a.var z).2 = some C) (k1 : (s.var x).1 = .vec) (hne : x ≠ z) :
    (C.rows = C.cols ∧ A.cols = C.cols → ∃ h', zMatDiag q p s.h = .ok (h', true) ∧ Filled s.h h' (buf s.h q) C.ccap C.rows C.cols fun i j => if i = j then A.el 0 i else 0) ∧
    (¬(C.rows = C.cols ∧ A.cols = C.cols) → zMatDiag q p s.h = .ok (s.h, false)) := by
  have v1 := g.valid x p A hx hA
  have v2 := g.valid z q C hz hC
  have w1 := g.val x p A hx hA
  have dj := (g.disj x z p q hne hx hz).2.2
  have rA := w1.vec (Or.inl k1)
  have c1 := v1.cols
  have c2 := v2.cols
  constructor
  · rintro ⟨f1, f2⟩
    obtain ⟨h1, e1, fl1⟩ := matAll_ok (0 : K) v2
    obtain ⟨h2, g2, e2, fl2, p1, p2⟩ := scatter1 h1 (buf s.h q) C.ccap C.rows C.cols (min C.rows C.cols) (buf s.h p) (fun i => i) (fun i => i * (C.ccap + 1)) (fun i => i) (fun i => i)
      (by rw [fl1.live]; exact v2.bl) c2 (by rw [fl1.len]; exact v2.cell) (fun i hi => ⟨by ring, by omega, by omega⟩) (fun _ _ _ _ e _ => e)
      (by rw [fl1.live]; exact v1.bl) dj (fun i hi => by
        have := v1.cell 0 i (by omega) (by omega)
        rw [fl1.len]; omega)
    refine ⟨h2, ?_, fl1.comp fl2 ?_⟩
    · unfold zMatDiag
      simp only [v1.hd, v2.hd, Res.bind, bufOf]
      rw [if_neg (by omega), if_neg (by omega), e1]
      simp only
      simp only [Res.bind] at e2
      rw [e2]
    · intro i j hi hj
      by_cases e : i = j
      · subst e
        rw [if_pos rfl, p1 i (by omega), fl1.dat _ dj]
        have := w1.el 0 i (by omega) (by omega)
        rwa [Nat.zero_mul, Nat.zero_add] at this
      · rw [if_neg e, p2 i j (fun k _ h => e (by omega)), fl1.el i j (by omega), if_pos ⟨hi, hj⟩]
  · intro hn
    unfold zMatDiag
    simp only [v1.hd, v2.hd, Res.bind]
    by_cases f1 : C.rows = C.cols
    · rw [if_neg (by omega), if_pos (fun c => hn ⟨f1, c.symm⟩)]
    · rw [if_pos f1]

theorem vshift_filled {s : Cl K} {a : Vals K} (g : Agrees s a) (c : K) {x z p q : Nat} {A C : Arr K} (hx : (s.var x).2 = some p) (hz : (s.var z).2 = some q)
    (hA : (a.var x).2 = some A) (hC : (a.var z).2 = some C) (k1 : (s.var x).1 = .vec) (k2 : (s.var z).1 = .vec) (hl : A.cols ≤ C.cols) :
    ∃ h', zVecShift p q c s.h = .ok h' ∧ Filled s.h h' (buf s.h q) C.ccap C.rows C.cols fun _ j => if j < A.cols then A.el 0 j + c else C.el 0 j := by
  have v1 := g.valid x p A hx hA
  have v2 := g.valid z q C hz hC
  have w1 := g.val x p A hx hA
  have w2 := g.val z q C hz hC
  have rA := w1.vec (Or.inl k1)
  have rC := w2.vec (Or.inl k2)
  have c1 := v1.cols
  have c2 := v2.cols
  have eA : ∀ j, j < A.cols → s.h.dat (buf s.h p) j = A.el 0 j := fun j hj => by
    have := w1.el 0 j (by omega) (by omega)
    rwa [Nat.zero_mul, Nat.zero_add] at this
  have lA : ∀ j, j < A.cols → j < s.h.len (buf s.h p) := fun j hj => by
    have := v1.cell 0 j (by omega) hj; omega
  have lC : ∀ j, j < C.cols → j < s.h.len (buf s.h q) := fun j hj => by
    have := v2.cell 0 j (by omega) hj; omega
  obtain ⟨h', e, fl⟩ := forUpM_ok (lo := 0) (hi := A.cols) (fun i h => (rd h (buf s.h p) i).bind fun x => wr h (buf s.h q) i (x + c)) s.h
    (fun n t => Filled s.h t (buf s.h q) C.ccap C.rows C.cols fun i j => if j < n then A.el 0 j + c else s.h.dat (buf s.h q) (i * C.ccap + j)) (Nat.zero_le _)
    ⟨rfl, rfl, rfl, rfl, rfl, fun _ _ => rfl, fun i j _ => by simp⟩ (by
      intro n t _ hn ft
      have e1 : rd t (buf s.h p) n = .ok (A.el 0 n) := by
        unfold rd
        rw [if_pos ⟨by rw [ft.live]; exact v1.bl, by rw [ft.len]; exact lA n hn⟩, ← eA n hn]
        by_cases eb : buf s.h p = buf s.h q
        · have := ft.el 0 n (by omega)
          rw [if_pos ⟨by omega, by omega⟩, if_neg (lt_irrefl n), Nat.zero_mul, Nat.zero_add] at this
          rw [eb, this]
        · rw [ft.dat _ eb]
      refine ⟨{ t with dat := fun b' k' => if b' = buf s.h q ∧ k' = 0 * C.ccap + n then A.el 0 n + c else t.dat b' k' }, ?_, ?_⟩
      · simp only [e1, Res.bind]
        unfold wr
        rw [if_pos ⟨by rw [ft.live]; exact v2.bl, by rw [ft.len]; exact lC n (by omega)⟩, Nat.zero_mul, Nat.zero_add]
      · refine ft.comp (set_filled t (buf s.h q) C.ccap C.rows C.cols 0 n _ (by omega) (by omega) c2) ?_
        intro i j hi hj
        obtain rfl : i = 0 := by omega
        have q3 := ft.el 0 j (by omega)
        rw [if_pos (show 0 < C.rows ∧ j < C.cols from ⟨hi, hj⟩)] at q3
        rw [q3]
        by_cases cj : j = n
        · subst cj
          rw [if_pos ⟨rfl, rfl⟩, if_pos (Nat.lt_succ_self j)]
        · rw [if_neg (fun c => cj c.2)]
          by_cases d : j < n
          · rw [if_pos d, if_pos (show j < n + 1 by omega)]
          · rw [if_neg d, if_neg (show ¬j < n + 1 by omega)])
  refine ⟨h', ?_, filled_congr fl ?_⟩
  · unfold zVecShift
    simp only [v1.hd, v2.hd, Res.bind, bufOf]
    simp only [Res.bind] at e
    exact e
  · intro i j hi hj
    obtain rfl : i = 0 := by omega
    by_cases d : j < A.cols
    · rw [if_pos d, if_pos d]
    · rw [if_neg d, if_neg d]
      exact w2.el 0 j (by omega) (by omega)

theorem mshift_filled {h : Hp K} {p b rc cc rows cols : Nat} (v : Valid h p b rc cc rows cols) (c : K) (hl : rows ≤ cols) :
    ∃ h', zMatShift p c h = .ok h' ∧ Filled h h' b cc rows cols fun i j => if i = j then h.dat b (i * cc + j) + c else h.dat b (i * cc + j) := by
  have hc := v.cols
  obtain ⟨h', e, fl⟩ := forUpM_ok (lo := 0) (hi := rows) (fun i h => (rd h b (i * cc + i)).bind fun x => wr h b (i * cc + i) (x + c)) h
    (fun n t => Filled h t b cc rows cols fun i j => if i = j ∧ i < n then h.dat b (i * cc + j) + c else h.dat b (i * cc + j)) (Nat.zero_le _)
    ⟨rfl, rfl, rfl, rfl, rfl, fun _ _ => rfl, fun i j _ => by simp⟩ (by
      intro n t _ hn ft
      have cell := v.cell n n hn (by omega)
      have q1 := ft.el n n (by omega)
      rw [if_pos ⟨hn, by omega⟩, if_neg (fun c => lt_irrefl n c.2)] at q1
      refine ⟨{ t with dat := fun b' k' => if b' = b ∧ k' = n * cc + n then h.dat b (n * cc + n) + c else t.dat b' k' }, ?_, ?_⟩
      · unfold rd wr
        rw [if_pos ⟨by rw [ft.live]; exact v.bl, by rw [ft.len]; exact cell⟩]
        simp only [Res.bind]
        rw [if_pos ⟨by rw [ft.live]; exact v.bl, by rw [ft.len]; exact cell⟩, q1]
      · refine ft.comp (set_filled t b cc rows cols n n _ hn (by omega) hc) ?_
        intro i j hi hj
        have q3 := ft.el i j (by omega)
        rw [if_pos ⟨hi, hj⟩] at q3
        rw [q3]
        by_cases cj : i = n ∧ j = n
        · obtain ⟨rfl, rfl⟩ := cj
          rw [if_pos ⟨rfl, rfl⟩, if_pos ⟨rfl, Nat.lt_succ_self _⟩]
        · rw [if_neg cj]
          by_cases d : i = j ∧ i < n
          · rw [if_pos d, if_pos (show i = j ∧ i < n + 1 from ⟨d.1, by omega⟩)]
          · rw [if_neg d, if_neg (show ¬(i = j ∧ i < n + 1) from fun c => by
              rcases Nat.lt_or_ge i n with h3 | h3
              · exact d ⟨c.1, h3⟩
              · exact cj ⟨by omega, by omega⟩)])
  refine ⟨h', ?_, filled_congr fl ?_⟩
  · unfold zMatShift
    simp only [v.hd, Res.bind, bufOf]
    simp only [Res.bind] at e
    exact e
  · intro i j hi hj
    by_cases d : i = j
    · rw [if_pos ⟨d, hi⟩, if_pos d]
    · rw [if_neg (fun c => d c.1), if_neg d]

theorem vswap_filled {h : Hp K} {p b rc cc cols : Nat} (v : Valid h p b rc cc 1 cols) (i1 i2 : Nat) :
    (i1 < cols ∧ i2 < cols → ∃ h', zVecSwap p i1 i2 h = .ok (h', true) ∧ Filled h h' b cc 1 cols fun i j => h.dat b (i * cc + swapIx i1 i2 j)) ∧
    (cols < i1 ∨ cols < i2 → zVecSwap p i1 i2 h = .ok (h, false)) := by
  constructor
  · rintro ⟨h1, h2⟩
    obtain ⟨h', e, fl⟩ := exch h b cc 1 cols 0 i1 0 i2 v.bl v.cols v.cell (by omega) h1 (by omega) h2
    simp only [Nat.zero_mul, Nat.zero_add] at e
    refine ⟨h', ?_, filled_congr fl ?_⟩
    · unfold zVecSwap
      simp only [v.hd, Res.bind, bufOf]
      rw [if_neg (by omega)]
      simp only [Res.bind] at e
      rw [e]
    · intro i j hi hj
      obtain rfl : i = 0 := by omega
      unfold swapIx
      by_cases a1 : j = i1 <;> by_cases a2 : j = i2 <;> simp_all
  · intro hn
    unfold zVecSwap
    simp only [v.hd, Res.bind]
    rw [if_pos (by omega)]

/-! ## Arrays -/

theorem var_upd (a : Vals K) (x y : Nat) (F : Arr K → Arr K) : (a.upd x F).var y = if y = x then ((a.var x).1, (a.var x).2.map F) else a.var y := by
  by_cases hx : x < a.length
  · unfold Vals.upd; exact vals_set a _ x y hx
  · have e : (a.var x) = (.mat, none) := by unfold Vals.var; rw [List.getD_eq_getElem?_getD, List.getElem?_eq_none (by omega)]; rfl
    rw [upd_none a x F (by rw [e])]
    by_cases c : y = x
    · rw [if_pos c, c, e]; rfl
    · rw [if_neg c]

theorem fillGo_ok (V : Arr K) (v pv : Nat) (xs : List Nat) : ∀ (s : Cl K) (a : Vals K) (l : List Nat), Agrees s a → (s.var v).2 = some pv → (a.var v).2 = some V → (s.var v).1 = .vec → v ∉ xs →
    ptrs s xs = some l → (∀ x ∈ xs, (s.var x).1 = .vec) → (∀ x ∈ xs, a.size x = some V.cols) → ∃ h', fillGo pv l s.h = .ok h' ∧ Agrees { s with h := h' } (fillVals V xs a) := by
  induction xs with
  | nil =>
    intro s a l g _ _ _ _ hl _ _
    cases hl
    exact ⟨s.h, rfl, g⟩
  | cons x xs ih =>
    intro s a l g hv hV kv hn hl hk hs
    unfold ptrs at hl
    cases hx : (s.var x).2 with
    | none => rw [hx] at hl; cases hl
    | some p =>
      cases hp : ptrs s xs with
      | none => rw [hx, hp] at hl; cases hl
      | some l' =>
        rw [hx, hp] at hl
        cases hl
        obtain ⟨C, hC⟩ := g.some hx
        have sC : C.cols = V.cols := by
          have := hs x (by simp)
          unfold Vals.size at this
          rw [hC] at this
          exact Option.some.inj this
        have hne : v ≠ x := fun c => hn (by simp [c])
        have u1 := g.valid v pv V hv hV
        have u2 := g.valid x p C hx hC
        have wV := g.val v pv V hv hV
        have wC := g.val x p C hx hC
        have rV := (wV.vec (Or.inl kv)).1
        have rC := (wC.vec (Or.inl (hk x (by simp)))).1
        have dj := (g.disj v x pv p hne hv hx).2.2
        rw [rV] at u1
        rw [rC, sC] at u2
        obtain ⟨h1, e1, f1⟩ := matCopyNC_ok u1 u2 dj
        have g1 : Agrees { s with h := h1 } (a.upd x fun C => withEl C fun _ j => V.el 0 j) := by
          refine agrees_withEl g x p C hx hC h1 _ (fun _ j => V.el 0 j) (by rw [rC, sC]; exact f1) ?_ _ rfl
          intro i j hi hj
          obtain rfl : i = 0 := by omega
          have := wV.el 0 j (by have := wV.rows; omega) (by have := wV.cols; omega)
          exact this
        have e2 : ptrs { s with h := h1 } xs = some l' := by
          rw [← hp]
          clear ih hn hk hs hp
          induction xs with
          | nil => rfl
          | cons y ys ih2 => unfold ptrs; rw [ih2]; rfl
        obtain ⟨h2, e3, g2⟩ := ih { s with h := h1 } _ l' g1 hv (by rw [var_upd, if_neg hne]; exact hV) kv (fun c => hn (by simp [c])) e2 (fun y hy => hk y (by simp [hy])) (by
          intro y hy
          have := hs y (by simp [hy])
          unfold Vals.size at this ⊢
          rw [var_upd]
          by_cases c : y = x
          · rw [if_pos c]
            rw [c] at this
            rw [Option.map_map]
            exact this
          · rw [if_neg c]; exact this)
        refine ⟨h2, ?_, g2⟩
        unfold fillGo
        rw [vecCopyNC_eq u1 u2, e1]
        exact e3

/-! ## Steps -/

theorem ptrs_none {s : Cl K} {a : Vals K} (g : Agrees s a) (xs : List Nat) : ptrs s xs = none ↔ ¬∀ x ∈ xs, a.size x ≠ none := by
  induction xs with
  | nil => simp [ptrs]
  | cons x xs ih =>
    unfold ptrs
    have q : (s.var x).2 = none ↔ a.size x = none := by unfold Vals.size; rw [Option.map_eq_none_iff]; exact g.null x
    cases hx : (s.var x).2 with
    | none => simp [q.1 hx]
    | some p =>
      have hx' : a.size x ≠ none := fun c => by rw [q.2 c] at hx; cases hx
      cases hp : ptrs s xs with
      | none => have := ih.1 hp; simp only [true_iff]; exact fun c => this (fun y hy => c y (by simp [hy]))
      | some l =>
        have h2 : ∀ x ∈ xs, a.size x ≠ none := by
          by_contra c
          rw [ih.2 c] at hp; cases hp
        simp only [reduceCtorEq, false_iff, not_not]
        intro y hy
        rcases List.mem_cons.1 hy with rfl | hy
        · exact hx'
        · exact h2 y hy

/-- One step of a client. -/
theorem qstep_ok (tol : K) (avail : Nat → Bool) {s : Cl K} {a : Vals K} (g : Agrees s a) (o : QOp K) (hf : QFits a o) :
    ∃ s' got, qstep tol avail s o = .ok s' ∧ Agrees s' (qspec tol got a o) ∧ (got = false → Refused avail s.h) := by
  cases o with
  | base o => exact pstep_ok tol avail g o hf
  | diag x z =>
    simp only [qstep, qspec]
    rw [← g.kind x, ← g.kind z]
    by_cases hk : (s.var x).1 = .vec ∧ (s.var z).1 = .mat
    · rw [if_pos hk, if_pos hk]
      have hne : x ≠ z := fun c => by rw [c, hk.2] at hk; cases hk.1
      cases hx : (s.var x).2 with
      | none => exact ⟨s, true, rfl, by rw [(g.null x).1 hx]; exact g, by simp⟩
      | some p =>
        obtain ⟨A, hA⟩ := g.some hx
        cases hz : (s.var z).2 with
        | none => exact ⟨s, true, rfl, by rw [hA]; simp only; rw [upd_none _ _ _ ((g.null z).1 hz)]; exact g, by simp⟩
        | some q =>
          obtain ⟨C, hC⟩ := g.some hz
          obtain ⟨b1, b2⟩ := diag_filled g hx hz hA hC hk.1 hne
          by_cases hs : C.rows = C.cols ∧ A.cols = C.cols
          · obtain ⟨h', e, fl⟩ := b1 hs
            refine ⟨{ s with h := h' }, true, by simp only [e, Res.bind], ?_, by simp⟩
            rw [hA]
            exact agrees_withEl g z q C hz hC h' _ (fun i j => if i = j then A.el 0 i else 0) fl (fun _ _ _ _ => rfl) _ (if_pos hs)
          · refine ⟨s, true, by simp only [b2 hs, Res.bind], ?_, by simp⟩
            rw [hA]
            exact upd_id g z _ (fun C' hC' => by rw [hC] at hC'; cases hC'; exact if_neg hs)
    · rw [if_neg hk, if_neg hk]
      exact ⟨s, true, rfl, g, by simp⟩
  | vshift c x z =>
    simp only [qstep, qspec]
    rw [← g.kind x, ← g.kind z]
    by_cases hk : (s.var x).1 = .vec ∧ (s.var z).1 = .vec
    · rw [if_pos hk, if_pos hk]
      cases hx : (s.var x).2 with
      | none => exact ⟨s, true, rfl, by rw [(g.null x).1 hx]; exact g, by simp⟩
      | some p =>
        obtain ⟨A, hA⟩ := g.some hx
        cases hz : (s.var z).2 with
        | none => exact ⟨s, true, rfl, by rw [hA]; simp only; rw [upd_none _ _ _ ((g.null z).1 hz)]; exact g, by simp⟩
        | some q =>
          obtain ⟨C, hC⟩ := g.some hz
          obtain ⟨h', e, fl⟩ := vshift_filled g c hx hz hA hC hk.1 hk.2 (hf A C hA hC)
          refine ⟨{ s with h := h' }, true, by simp only [e, Res.bind], ?_, by simp⟩
          rw [hA]
          exact agrees_withEl g z q C hz hC h' _ _ fl (fun _ _ _ _ => rfl) _ rfl
    · rw [if_neg hk, if_neg hk]
      exact ⟨s, true, rfl, g, by simp⟩
  | mshift c x =>
    simp only [qstep, qspec]
    rw [← g.kind x]
    by_cases hk : (s.var x).1 = .mat
    · rw [if_pos hk, if_pos hk]
      cases hx : (s.var x).2 with
      | none => exact ⟨s, true, rfl, by rw [upd_none _ _ _ ((g.null x).1 hx)]; exact g, by simp⟩
      | some p =>
        obtain ⟨A, hA⟩ := g.some hx
        have w := g.val x p A hx hA
        obtain ⟨h', e, fl⟩ := mshift_filled (g.valid x p A hx hA) c (hf A hA)
        refine ⟨{ s with h := h' }, true, by simp only [e, Res.bind], ?_, by simp⟩
        refine agrees_withEl g x p A hx hA h' _ (fun i j => if i = j then A.el i j + c else A.el i j) fl ?_ _ rfl
        intro i j hi hj
        rw [w.el i j (lt_of_lt_of_le hi w.rows) (lt_of_lt_of_le hj w.cols)]
    · rw [if_neg hk, if_neg hk]
      exact ⟨s, true, rfl, g, by simp⟩
  | vswap x i1 i2 =>
    simp only [qstep, qspec]
    rw [← g.kind x]
    by_cases hk : (s.var x).1 = .vec
    · rw [if_pos hk, if_pos hk]
      cases hx : (s.var x).2 with
      | none => exact ⟨s, true, rfl, by rw [upd_none _ _ _ ((g.null x).1 hx)]; exact g, by simp⟩
      | some p =>
        obtain ⟨A, hA⟩ := g.some hx
        have w := g.val x p A hx hA
        have v := g.valid x p A hx hA
        have r1 := (w.vec (Or.inl hk)).1
        rw [r1] at v
        obtain ⟨b1, b2⟩ := vswap_filled v i1 i2
        rcases hf A hA with hs | hs
        · obtain ⟨h', e, fl⟩ := b1 hs
          refine ⟨{ s with h := h' }, true, by simp only [e, Res.bind], ?_, by simp⟩
          exact agrees_withEl g x p A hx hA h' _ (fun i j => A.el i (swapIx i1 i2 j)) (by rw [r1]; exact fl)
            (fun i j hi hj => w.el _ _ (lt_of_lt_of_le hi w.rows) (lt_of_lt_of_le (swapIx_lt hs.1 hs.2 hj) w.cols)) _ (if_pos hs)
        · refine ⟨s, true, by simp only [b2 hs, Res.bind], ?_, by simp⟩
          exact upd_id g x _ (fun C' hC' => by rw [hA] at hC'; cases hC'; exact if_neg (by omega))
    · rw [if_neg hk, if_neg hk]
      exact ⟨s, true, rfl, g, by simp⟩
  | fill xs v =>
    obtain ⟨f1, f2, f3, f4, f5⟩ := hf
    simp only [qstep, qspec]
    cases hl : ptrs s xs with
    | none =>
      refine ⟨s, true, rfl, ?_, by simp⟩
      have := (ptrs_none g xs).1 hl
      cases hV : (a.var v).2 with
      | none => exact g
      | some V => simp only; rw [if_neg (fun c => this c.1)]; exact g
    | some l =>
      have nn : ∀ x ∈ xs, a.size x ≠ none := by
        by_contra c
        rw [(ptrs_none g xs).2 c] at hl; cases hl
      cases hv : (s.var v).2 with
      | none => exact ⟨s, true, rfl, by rw [(g.null v).1 hv]; exact g, by simp⟩
      | some pv =>
        obtain ⟨V, hV⟩ := g.some hv
        rw [hV]
        simp only
        cases xs with
        | nil => exact absurd rfl f1
        | cons x xs =>
          cases hx : (s.var x).2 with
          | none => exact absurd (by unfold Vals.size; rw [(g.null x).1 hx]; rfl) (nn x (by simp))
          | some p =>
            obtain ⟨C, hC⟩ := g.some hx
            obtain ⟨l', rfl⟩ : ∃ l', l = p :: l' := by
              unfold ptrs at hl
              rw [hx] at hl
              cases hp : ptrs s xs with
              | none => rw [hp] at hl; cases hl
              | some l' => rw [hp] at hl; cases hl; exact ⟨l', rfl⟩
            have sx : a.size x = some C.cols := by unfold Vals.size; rw [hC]; rfl
            by_cases hs : C.cols = V.cols
            · obtain ⟨h', e, ag⟩ := fillGo_ok V v pv (x :: xs) s a (p :: l') g hv hV (by rw [g.kind]; exact f3) f2 hl (fun y hy => by rw [g.kind]; exact f4 y hy)
                (fun y hy => by rw [f5 y hy x (by simp), sx, hs])
              refine ⟨{ s with h := h' }, true, ?_, ?_, by simp⟩
              · unfold zVecArrayFill
                simp only [(g.valid x p C hx hC).hd, (g.valid v pv V hv hV).hd, Res.bind]
                rw [if_neg (by omega), e]
              · rw [if_pos ⟨nn, fun y hy => by rw [f5 y hy x (by simp), sx, hs]⟩]
                exact ag
            · refine ⟨s, true, ?_, ?_, by simp⟩
              · unfold zVecArrayFill
                simp only [(g.valid x p C hx hC).hd, (g.valid v pv V hv hV).hd, Res.bind]
                rw [if_pos hs]
              · rw [if_neg (fun c => hs (by have := c.2 x (by simp); rw [sx] at this; exact Option.some.inj this))]
                exact g

/-! ## Histories -/

/-- The values along a history. -/
noncomputable def qspecRun (tol : K) : List (QOp K) → List Bool → Vals K → Vals K
  | o :: l, b :: bs, a => qspecRun tol l bs (qspec tol b a o)
  | _, _, a => a

/-- The obligations of the client along a history, whether memory is given out or not. -/
def QAllFit (tol : K) : List (QOp K) → Vals K → Prop
  | [], _ => True
  | o :: l, a => QFits a o ∧ ∀ got, QAllFit tol l (qspec tol got a o)

theorem qrun_ok (tol : K) (avail : Nat → Bool) (l : List (QOp K)) : ∀ (s : Cl K) (a : Vals K), Agrees s a → QAllFit tol l a →
    ∃ s' gots, qrun tol avail l s = .ok s' ∧ gots.length = l.length ∧ Agrees s' (qspecRun tol l gots a) ∧ ((∀ n, avail n = true) → ∀ b ∈ gots, b = true) := by
  induction l with
  | nil => intro s a g _; exact ⟨s, [], rfl, rfl, g, by simp⟩
  | cons o l ih =>
    intro s a g hf
    obtain ⟨s1, got, e, g1, hr⟩ := qstep_ok tol avail g o hf.1
    obtain ⟨s2, gots, e2, hl, g2, hr2⟩ := ih s1 _ g1 (hf.2 got)
    refine ⟨s2, got :: gots, by simp only [qrun, e, Res.bind, e2], by simp [hl], g2, ?_⟩
    intro ha b hb
    rcases List.mem_cons.1 hb with rfl | hb
    · cases h : b
      · rcases hr h with h1 | h1 <;> rw [ha] at h1 <;> cases h1
      · rfl
    · exact hr2 ha b hb

/-- C243: these functions, in any history in which the client keeps the obligations: no undefined behaviour, and the values are those of the specification.
The full claim asks for a refusal where the obligations are not kept; see the violations. -/
theorem misc_history_partial (tol : K) (avail : Nat → Bool) (l : List (QOp K)) (t next : Nat) (hdr : Nat → Hdr) (len : Nat → Nat) (d : Nat → Nat → K) (hf : QAllFit tol l []) :
    ∃ s gots, qrun tol avail l ⟨[], ⟨t, next, [], hdr, len, d⟩⟩ = .ok s ∧ gots.length = l.length ∧ Agrees s (qspecRun tol l gots []) ∧
      ((∀ n, avail n = true) → ∀ b ∈ gots, b = true) :=
  qrun_ok tol avail l _ _ (agrees_empty d hdr len t next) hf

/-! ## Violations -/

/-- What is left of the heap after a history with memory for everything. -/
def exHeap (l : List (QOp ℚ)) : Res (Cl ℚ) := qrun 0 (fun _ => true) l ⟨[], ⟨0, 0, [], fun _ => {}, fun _ => 0, fun _ _ => 7⟩⟩

def exVec (l : List ℚ) : QOp ℚ := .base (.base (.base (.base (.base (.create .vec 1 l.length l)))))
def exMat (r c : Nat) (l : List ℚ) : QOp ℚ := .base (.base (.base (.base (.base (.create .mat r c l)))))

def isUb (r : Res (Cl ℚ)) : Bool := match r with | .ub => true | _ => false

/-- C243 is violated: an array whose vectors differ in size is filled although a vector is larger than the source, which is read outside; an empty array is read;
a shift into a smaller vector writes outside; so do the shift of the diagonal of a matrix of one column and two rows, and the exchange with the position after the last. -/
theorem misc_violated :
    isUb (exHeap [exVec [1, 2], exVec [3, 4], exVec [5, 6, 7], .fill [1, 2] 0]) = true ∧ isUb (exHeap [exVec [1, 2], .fill [] 0]) = true ∧
    isUb (exHeap [exVec [1, 2, 3], exVec [4], .vshift 1 0 1]) = true ∧ isUb (exHeap [exMat 2 1 [1, 2], .mshift 1 0]) = true ∧
    isUb (exHeap [exVec [1, 2], .vswap 0 0 2]) = true := by decide +kernel

/-! ## Not vacuous -/

def exMisc : List (QOp ℚ) := [exVec [1, 2], exMat 2 2 [3, 4, 5, 6], exVec [7, 8], exVec [9, 10], .diag 0 1, .mshift (1 / 2) 1, .vswap 0 0 1, .vswap 0 3 1, .vshift 5 0 0,
  .fill [2, 3] 0, .vshift 1 3 2]

def exMiscRead : Res (List ℚ) :=
  (exHeap exMisc).bind fun s =>
  match (s.var 1).2, (s.var 2).2, (s.var 3).2 with
  | some p, some q, some r => (zMatElem p 0 0 s.h).bind fun a => (zMatElem p 0 1 s.h).bind fun b => (zMatElem p 1 1 s.h).bind fun c => (zMatElem q 0 0 s.h).bind fun d =>
    (zMatElem q 0 1 s.h).bind fun e => (zMatElem r 0 1 s.h).bind fun x => .ok [a, b, c, d, e, x]
  | _, _, _ => .fail

example : exMiscRead = .ok [3 / 2, 0, 5 / 2, 8, 7, 6] := by decide +kernel

example : QAllFit 0 [exVec [1, 2], .vshift 5 0 0, .vswap 0 0 1, exMat 2 2 [3, 4, 5, 6], .mshift 1 1, .diag 0 1, exVec [7, 8], .fill [2] 0] ([] : Vals ℚ) := by
  simp [QAllFit, QFits, PFits, DFits, MFits, AFits, Fits, exVec, exMat, rowsOf, qspec, pspec, dspec, mspec, aspec, specStep, Vals.upd, Vals.var, Vals.size, withEl, Obj.mk, fillVals]

end Zm.Obj
