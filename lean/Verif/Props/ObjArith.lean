import Verif.Model.ObjArith
import Verif.Props.Obj
import Mathlib.Algebra.Order.Ring.Rat

/-! # C237: arithmetic on vectors and matrices as objects -/

set_option linter.unusedSectionVars false

namespace Zm.Obj
variable {K : Type*} [Field K] [LinearOrder K] [IsStrictOrderedRing K]

/-! ## Specification: arithmetic on values -/

/-- The elements in use are replaced by those of `g`. -/
def withEl (C : Arr K) (g : Nat → Nat → K) : Arr K := { C with el := fun i j => if i < C.rows ∧ j < C.cols then g i j else C.el i j }

/-- What is computed of two elements. -/
def opBin (k : Kind) (f : Bin K) : Option (K → K → K) :=
  if k = .vec ∨ k = .mat then
    match f with
    | .add => some fun x y => x + y
    | .sub => some fun x y => x - y
    | .amp => if k = .vec then some fun x y => x * y else none
    | .cat c => some fun x y => x + c * y
  else none

/-- What is computed of one element; a tiny divisor is refused. -/
def opUn (tol : K) (k : Kind) (f : Un K) : Option (K → K) :=
  if k = .vec ∨ k = .mat then
    match f with
    | .rev => some fun x => -x
    | .mul c => some fun x => c * x
    | .div c => if |c| ≤ tol then none else some fun x => x / c
  else none

/-- The value that is set. -/
def opPut (k : Kind) (f : Put K) (C : Arr K) : Arr K :=
  match f with
  | .zero => if k = .vec ∨ k = .mat then withEl C fun _ _ => 0 else C
  | .all v => if k = .vec then withEl C fun _ _ => v else C
  | .touchup t => if k = .vec ∨ k = .mat then withEl C fun i j => if |C.el i j| ≤ t then 0 else C.el i j else C
  | .ident => if k = .mat ∧ C.rows = C.cols then withEl C fun i j => if i = j then 1 else 0 else C

/-- The same sizes. -/
def SizeEq (A B : Arr K) : Prop := A.rows = B.rows ∧ A.cols = B.cols
instance (A B : Arr K) : Decidable (SizeEq A B) := by unfold SizeEq; infer_instance

/-- The values after a function of two operands: computed from the values before. -/
def specBin (s : Vals K) (z : Nat) (g : Option (K → K → K)) (A B : Option (Arr K)) : Vals K :=
  match g, A, B with
  | some g, some A, some B => s.upd z fun C => if SizeEq A C ∧ SizeEq B C then withEl C fun i j => g (A.el i j) (B.el i j) else C
  | _, _, _ => s

/-- The values after a function of one operand. -/
def specUn (s : Vals K) (z : Nat) (g : Option (K → K)) (A : Option (Arr K)) : Vals K :=
  match g, A with
  | some g, some A => s.upd z fun C => if SizeEq A C then withEl C fun i j => g (A.el i j) else C
  | _, _ => s

/-- The values after one step. -/
def aspec (tol : K) (got : Bool) (s : Vals K) (o : AOp K) : Vals K :=
  match o with
  | .base o => specStep got s o
  | .bin f x y z => if (s.var x).1 = (s.var z).1 ∧ (s.var y).1 = (s.var z).1 then specBin s z (opBin (s.var z).1 f) (s.var x).2 (s.var y).2 else s
  | .un f x z => if (s.var x).1 = (s.var z).1 then specUn s z (opUn tol (s.var z).1 f) (s.var x).2 else s
  | .put f z => s.upd z (opPut (s.var z).1 f)

/-- The obligation of the client is that of `Fits`; arithmetic has none. -/
def AFits (s : Vals K) (o : AOp K) : Prop :=
  match o with
  | .base o => Fits s o
  | _ => True

/-! ## Loops whose sources may be their destination -/

theorem fillNow (h : Hp K) (b cap rows cols : Nat) (g : Nat → Nat → K) (body : Nat → Nat → Hp K → Res (Hp K)) (hb : b ∈ h.live) (hc : cols ≤ cap)
    (hl : ∀ i j, i < rows → j < cols → i * cap + j < h.len b)
    (hs : ∀ i j, i < rows → j < cols → body i j (pre h b cap cols g (i * cols + j)) = wr (pre h b cap cols g (i * cols + j)) b (i * cap + j) (g i j)) :
    ∃ h', forUpM 0 rows (fun i h => forUpM 0 cols (body i) h) h = .ok h' ∧ Filled h h' b cap rows cols g := by
  obtain ⟨h', e, p⟩ := nested rows cols body (fun n t => t = pre h b cap cols g n) h (pre_zero ..).symm (by
    rintro i j t hi hj rfl
    exact ⟨_, (hs i j hi hj).trans (pre_step h b cap cols g i j hb (hl i j hi hj) hj hc), rfl⟩)
  exact ⟨h', e, p ▸ pre_filled h b cap rows cols g⟩

/-- A place that has not been written yet still holds its element. -/
theorem dat_now (h : Hp K) (b cap cols : Nat) (g : Nat → Nat → K) (i j s cap' : Nat) (hj : j < cols) (hc : cols ≤ cap) (he : s = b → cap' = cap) :
    (pre h b cap cols g (i * cols + j)).dat s (i * cap' + j) = h.dat s (i * cap' + j) := by
  unfold pre
  dsimp only
  rw [if_neg]
  rintro ⟨e, _, hlt⟩
  rw [he e] at hlt
  have e1 : (i * cap + j) % cap = j := by rw [Nat.add_comm, Nat.add_mul_mod_self_right, Nat.mod_eq_of_lt (by omega)]
  have e2 : (i * cap + j) / cap = i := by
    rw [Nat.add_comm, Nat.add_mul_div_right _ _ (by omega), Nat.div_eq_of_lt (by omega), Nat.zero_add]
  rw [e1, e2] at hlt
  omega

theorem rd_now (h : Hp K) (b cap cols : Nat) (g : Nat → Nat → K) (i j s cap' : Nat) (hj : j < cols) (hc : cols ≤ cap) (he : s = b → cap' = cap)
    (hs : s ∈ h.live) (hk : i * cap' + j < h.len s) : rd (pre h b cap cols g (i * cols + j)) s (i * cap' + j) = .ok (h.dat s (i * cap' + j)) := by
  unfold rd
  rw [if_pos ⟨hs, hk⟩, dat_now h b cap cols g i j s cap' hj hc he]

theorem wr_same (h : Hp K) (b k : Nat) (hb : b ∈ h.live) (hk : k < h.len b) : wr h b k (h.dat b k) = .ok h := by
  unfold wr
  rw [if_pos ⟨hb, hk⟩]
  congr 1
  have : (fun b' k' => if b' = b ∧ k' = k then h.dat b k else h.dat b' k') = h.dat := by
    funext b' k'
    split
    · rename_i e; rw [e.1, e.2]
    · rfl
  rw [this]

theorem mat3NC_ok (f : K → K → K) {h : Hp K} {p1 b1 r1 c1 p2 b2 r2 c2 p b rc cc rows cols : Nat} (v1 : Valid h p1 b1 r1 c1 rows cols)
    (v2 : Valid h p2 b2 r2 c2 rows cols) (v : Valid h p b rc cc rows cols) (e1 : b1 = b → c1 = cc) (e2 : b2 = b → c2 = cc) :
    ∃ h', mat3NC f p1 p2 p h = .ok h' ∧ Filled h h' b cc rows cols fun i j => f (h.dat b1 (i * c1 + j)) (h.dat b2 (i * c2 + j)) := by
  unfold mat3NC
  simp only [v1.hd, v2.hd, v.hd, Res.bind, bufOf]
  refine fillNow h b cc rows cols _ _ v.bl v.cols v.cell ?_
  intro i j hi hj
  rw [rd_now h b cc cols _ i j b1 c1 hj v.cols e1 v1.bl (v1.cell i j hi hj)]
  simp only [Res.bind]
  rw [rd_now h b cc cols _ i j b2 c2 hj v.cols e2 v2.bl (v2.cell i j hi hj)]

theorem vec3NC_eq (f : K → K → K) {h : Hp K} {p1 b1 r1 c1 p2 b2 r2 c2 p b rc cc cols : Nat} (v1 : Valid h p1 b1 r1 c1 1 cols)
    (v2 : Valid h p2 b2 r2 c2 1 cols) (v : Valid h p b rc cc 1 cols) : vec3NC f p1 p2 p h = mat3NC f p1 p2 p h := by
  unfold vec3NC mat3NC
  simp only [v1.hd, v2.hd, v.hd, Res.bind, bufOf, forUpM_one, Nat.zero_mul]

theorem mat2NC_ok (f : K → K) {h : Hp K} {p1 b1 r1 c1 p b rc cc rows cols : Nat} (v1 : Valid h p1 b1 r1 c1 rows cols)
    (v : Valid h p b rc cc rows cols) (e1 : b1 = b → c1 = cc) :
    ∃ h', mat2NC f p1 p h = .ok h' ∧ Filled h h' b cc rows cols fun i j => f (h.dat b1 (i * c1 + j)) := by
  unfold mat2NC
  simp only [v1.hd, v.hd, Res.bind, bufOf]
  refine fillNow h b cc rows cols _ _ v.bl v.cols v.cell ?_
  intro i j hi hj
  rw [rd_now h b cc cols _ i j b1 c1 hj v.cols e1 v1.bl (v1.cell i j hi hj)]
  rfl

theorem vec2NC_eq (f : K → K) {h : Hp K} {p1 b1 r1 c1 p b rc cc cols : Nat} (v1 : Valid h p1 b1 r1 c1 1 cols)
    (v : Valid h p b rc cc 1 cols) : vec2NC f p1 p h = mat2NC f p1 p h := by
  unfold vec2NC mat2NC
  simp only [v1.hd, v.hd, Res.bind, bufOf, forUpM_one, Nat.zero_mul]

theorem matAll_ok (x : K) {h : Hp K} {p b rc cc rows cols : Nat} (v : Valid h p b rc cc rows cols) :
    ∃ h', forUpM 0 rows (fun i h => rawVec1 x b (i * cc) cols h) h = .ok h' ∧ Filled h h' b cc rows cols fun _ _ => x :=
  fillNow h b cc rows cols _ _ v.bl v.cols v.cell (fun _ _ _ _ => rfl)

theorem matTouchup_ok (t : K) {h : Hp K} {p b rc cc rows cols : Nat} (v : Valid h p b rc cc rows cols) :
    ∃ h', forUpM 0 rows (fun i h => rawVecTouchup t b (i * cc) cols h) h = .ok h' ∧
      Filled h h' b cc rows cols fun i j => if |h.dat b (i * cc + j)| ≤ t then 0 else h.dat b (i * cc + j) := by
  refine fillNow h b cc rows cols _ _ v.bl v.cols v.cell ?_
  intro i j hi hj
  rw [rd_now h b cc cols _ i j b cc hj v.cols (fun _ => rfl) v.bl (v.cell i j hi hj)]
  simp only [Res.bind]
  by_cases ht : |h.dat b (i * cc + j)| ≤ t
  · rw [if_pos ht, if_pos ht]
  · rw [if_neg ht, if_neg ht]
    have e := dat_now h b cc cols (fun i j => if |h.dat b (i * cc + j)| ≤ t then 0 else h.dat b (i * cc + j)) i j b cc hj v.cols (fun _ => rfl)
    rw [← e]
    exact (wr_same (pre h b cc cols _ (i * cols + j)) b _ v.bl (v.cell i j hi hj)).symm

theorem Filled.comp {h h1 h2 : Hp K} {b cap rows cols : Nat} {g g1 g2 : Nat → Nat → K} (f : Filled h h1 b cap rows cols g)
    (f1 : Filled h1 h2 b cap rows cols g1) (e : ∀ i j, i < rows → j < cols → g1 i j = g2 i j) : Filled h h2 b cap rows cols g2 := by
  refine ⟨f1.t.trans f.t, f1.next.trans f.next, f1.live.trans f.live, f1.hdr.trans f.hdr, f1.len.trans f.len,
    fun b' hb => (f1.dat b' hb).trans (f.dat b' hb), fun i j hj => ?_⟩
  rw [f1.el i j hj]
  by_cases hc : i < rows ∧ j < cols
  · rw [if_pos hc, if_pos hc]; exact e i j hc.1 hc.2
  · rw [if_neg hc, if_neg hc, f.el i j hj, if_neg hc]

theorem ident_ok {h : Hp K} {p b rc cc rows cols : Nat} (v : Valid h p b rc cc rows cols) :
    ∃ h', zMatIdentNC p h = .ok h' ∧ Filled h h' b cc rows cols fun i j => if i = j then 1 else 0 := by
  unfold zMatIdentNC
  simp only [v.hd, Res.bind, bufOf]
  obtain ⟨h1, e1, f1⟩ := matAll_ok (0 : K) v
  rw [e1]
  simp only
  refine Exists.elim (forUpM_ok (lo := 0) (hi := min rows cols) (fun i h => wr h b (i * (cc + 1)) 1) h1
    (fun n t => Filled h t b cc rows cols fun i j => if i = j ∧ i < n then 1 else 0) (Nat.zero_le _)
    (f1.comp (g1 := fun i j => h1.dat b (i * cc + j)) ⟨rfl, rfl, rfl, rfl, rfl, fun _ _ => rfl, fun i j _ => by split <;> rfl⟩ ?_) ?_) ?_
  · intro i j hi hj
    have := v.cols
    rw [f1.el i j (by omega), if_pos ⟨hi, hj⟩]
    simp
  · intro n t _ hn ft
    have hr : n < rows := lt_of_lt_of_le hn (min_le_left _ _)
    have hcl : n < cols := lt_of_lt_of_le hn (min_le_right _ _)
    have hcell := v.cell n n hr hcl
    have ei : n * (cc + 1) = n * cc + n := by rw [Nat.mul_add, Nat.mul_one]
    refine ⟨{ t with dat := fun b' k' => if b' = b ∧ k' = n * cc + n then 1 else t.dat b' k' }, ?_, ?_⟩
    · unfold wr
      rw [ei, if_pos ⟨by rw [ft.live]; exact v.bl, by rw [ft.len]; exact hcell⟩]
    · refine ft.comp (set_filled t b cc rows cols n n 1 hr hcl v.cols) ?_
      intro i j hi hj
      have := v.cols
      by_cases e : i = n ∧ j = n
      · rw [if_pos e, if_pos ⟨by omega, by omega⟩]
      · rw [if_neg e, ft.el i j (by omega), if_pos ⟨hi, hj⟩]
        by_cases e2 : i = j ∧ i < n
        · rw [if_pos e2, if_pos ⟨e2.1, by omega⟩]
        · rw [if_neg e2, if_neg (fun c => ?_)]
          rcases Nat.lt_or_ge i n with h3 | h3
          · exact e2 ⟨c.1, h3⟩
          · exact e ⟨by omega, by omega⟩
  · rintro h2 ⟨e2, f2⟩
    refine ⟨h2, e2, filled_congr f2 ?_⟩
    intro i j hi hj
    by_cases e : i = j
    · rw [if_pos ⟨e, lt_min hi (e ▸ hj)⟩, if_pos e]
    · rw [if_neg (fun c => e c.1), if_neg e]

/-! ## Steps -/

theorem agrees_withEl {s : Cl K} {a : Vals K} (g : Agrees s a) (z p : Nat) (C : Arr K) (hz : (s.var z).2 = some p) (hC : (a.var z).2 = some C) (h' : Hp K)
    (f G : Nat → Nat → K) (hf : Filled s.h h' (buf s.h p) C.ccap C.rows C.cols f) (he : ∀ i j, i < C.rows → j < C.cols → f i j = G i j) (F : Arr K → Arr K)
    (hF : F C = withEl C G) : Agrees { s with h := h' } (a.upd z F) := by
  refine agrees_fill g z p C hz hC h' f (withEl C G).el hf ?_ F (hF.trans rfl)
  intro i j _ _
  unfold withEl
  dsimp only
  by_cases hc : i < C.rows ∧ j < C.cols
  · rw [if_pos hc, if_pos hc, he i j hc.1 hc.2]
  · rw [if_neg hc, if_neg hc]

theorem upd_id {s : Cl K} {a : Vals K} (g : Agrees s a) (z : Nat) (F : Arr K → Arr K) (hF : ∀ C, (a.var z).2 = some C → F C = C) : Agrees s (a.upd z F) := by
  cases hC : (a.var z).2 with
  | none => rw [upd_none a z F hC]; exact g
  | some C =>
    cases hz : (s.var z).2 with
    | none => exact absurd ((g.null z).1 hz) (by rw [hC]; simp)
    | some p =>
      rw [upd_some a z F C hC, hF C hC]
      exact agrees_set g z p C s.h hz rfl rfl (fun _ _ => rfl) rfl rfl (fun _ _ => rfl) (g.val z p C hz hC)

/-- Two variables of a client have the same buffer only if they are the same variable; the strides are the same then. -/
theorem Agrees.stride {s : Cl K} {a : Vals K} (g : Agrees s a) {x z p q : Nat} {A C : Arr K} (hx : (s.var x).2 = some p) (hz : (s.var z).2 = some q)
    (hA : (a.var x).2 = some A) (hC : (a.var z).2 = some C) : buf s.h p = buf s.h q → A.ccap = C.ccap := by
  intro e
  by_cases exz : x = z
  · subst exz; rw [hA] at hC; cases hC; rfl
  · exact absurd e (g.disj x z p q exz hx hz).2.2

/-- What a function of two operands does, by its class and the sizes. -/
theorem bin_filled {s : Cl K} {a : Vals K} (g : Agrees s a) (f : Bin K) {x y z p1 p2 p : Nat} {A B C : Arr K}
    (hx : (s.var x).2 = some p1) (hy : (s.var y).2 = some p2) (hz : (s.var z).2 = some p)
    (hA : (a.var x).2 = some A) (hB : (a.var y).2 = some B) (hC : (a.var z).2 = some C)
    (k1 : (s.var x).1 = (s.var z).1) (k2 : (s.var y).1 = (s.var z).1) :
    (∀ u, opBin (s.var z).1 f = some u → SizeEq A C ∧ SizeEq B C → ∃ h', binK (s.var z).1 f p1 p2 p s.h = .ok (h', true) ∧
      Filled s.h h' (buf s.h p) C.ccap C.rows C.cols fun i j => u (s.h.dat (buf s.h p1) (i * A.ccap + j)) (s.h.dat (buf s.h p2) (i * B.ccap + j))) ∧
    (opBin (s.var z).1 f = none ∨ ¬(SizeEq A C ∧ SizeEq B C) → binK (s.var z).1 f p1 p2 p s.h = .ok (s.h, false)) := by
  have v1 := g.valid x p1 A hx hA
  have v2 := g.valid y p2 B hy hB
  have v := g.valid z p C hz hC
  have w1 := g.val x p1 A hx hA
  have w2 := g.val y p2 B hy hB
  have w := g.val z p C hz hC
  have s1 := g.stride hx hz hA hC
  have s2 := g.stride hy hz hB hC
  have key : ∀ (F : K → K → K), SizeEq A C ∧ SizeEq B C → ∃ h', mat3NC F p1 p2 p s.h = .ok h' ∧
      Filled s.h h' (buf s.h p) C.ccap C.rows C.cols fun i j => F (s.h.dat (buf s.h p1) (i * A.ccap + j)) (s.h.dat (buf s.h p2) (i * B.ccap + j)) := by
    rintro F ⟨⟨e1, e2⟩, e3, e4⟩
    have u1 := v1
    have u2 := v2
    rw [e1, e2] at u1
    rw [e3, e4] at u2
    exact mat3NC_ok F u1 u2 v s1 s2
  have matGo : ∀ (F : K → K → K), SizeEq A C ∧ SizeEq B C → ∃ h', matCheck3 p1 p2 p (mat3NC F p1 p2 p) s.h = .ok (h', true) ∧
      Filled s.h h' (buf s.h p) C.ccap C.rows C.cols fun i j => F (s.h.dat (buf s.h p1) (i * A.ccap + j)) (s.h.dat (buf s.h p2) (i * B.ccap + j)) := by
    intro F hs
    obtain ⟨h', e, fl⟩ := key F hs
    refine ⟨h', ?_, fl⟩
    obtain ⟨⟨e1, e2⟩, e3, e4⟩ := hs
    simp only [matCheck3, v1.hd, v2.hd, v.hd, Res.bind]
    rw [if_neg (by simp [matSizeEqual, e1, e2, e3, e4]), e]
  have matNo : ∀ (F : K → K → K), ¬(SizeEq A C ∧ SizeEq B C) → matCheck3 p1 p2 p (mat3NC F p1 p2 p) s.h = .ok (s.h, false) := by
    intro F hs
    simp only [matCheck3, v1.hd, v2.hd, v.hd, Res.bind]
    rw [if_pos]
    by_contra hc
    simp only [matSizeEqual, not_or, not_not] at hc
    exact hs ⟨hc.2, hc.1.1.symm.trans hc.2.1, hc.1.2.symm.trans hc.2.2⟩
  have vecGo : ∀ (F : K → K → K), (s.var z).1 = .vec → SizeEq A C ∧ SizeEq B C → ∃ h', vecCheck3 p1 p2 p (vec3NC F p1 p2 p) s.h = .ok (h', true) ∧
      Filled s.h h' (buf s.h p) C.ccap C.rows C.cols fun i j => F (s.h.dat (buf s.h p1) (i * A.ccap + j)) (s.h.dat (buf s.h p2) (i * B.ccap + j)) := by
    intro F hk hs
    obtain ⟨h', e, fl⟩ := key F hs
    refine ⟨h', ?_, fl⟩
    obtain ⟨⟨e1, e2⟩, e3, e4⟩ := hs
    have r := (w.vec (Or.inl hk)).1
    have u1 := v1
    have u2 := v2
    have u := v
    rw [e1, e2, r] at u1
    rw [e3, e4, r] at u2
    rw [r] at u
    simp only [vecCheck3, v1.hd, v2.hd, v.hd, Res.bind]
    rw [if_neg (by simp [e2, e4]), vec3NC_eq F u1 u2 u, e]
  have vecNo : ∀ (F : K → K → K), (s.var z).1 = .vec → ¬(SizeEq A C ∧ SizeEq B C) → vecCheck3 p1 p2 p (vec3NC F p1 p2 p) s.h = .ok (s.h, false) := by
    intro F hk hs
    have r := (w.vec (Or.inl hk)).1
    have r1 := (w1.vec (Or.inl (k1.trans hk))).1
    have r2 := (w2.vec (Or.inl (k2.trans hk))).1
    simp only [vecCheck3, v1.hd, v2.hd, v.hd, Res.bind]
    rw [if_pos]
    by_contra hc
    simp only [not_or, not_not] at hc
    exact hs ⟨⟨r1.trans r.symm, hc.2⟩, r2.trans r.symm, hc.1.symm.trans hc.2⟩
  cases hk : (s.var z).1 with
  | vec =>
    cases f with
    | add => exact ⟨fun u hu hs => by cases hu; exact vecGo _ hk hs, fun h => vecNo _ hk (h.resolve_left (by simp [opBin]))⟩
    | sub => exact ⟨fun u hu hs => by cases hu; exact vecGo _ hk hs, fun h => vecNo _ hk (h.resolve_left (by simp [opBin]))⟩
    | amp => exact ⟨fun u hu hs => by cases hu; exact vecGo _ hk hs, fun h => vecNo _ hk (h.resolve_left (by simp [opBin]))⟩
    | cat c =>
      refine ⟨fun u hu hs => ?_, fun h => vecNo _ hk (h.resolve_left (by simp [opBin]))⟩
      cases hu
      obtain ⟨h', e, fl⟩ := vecGo (fun x y => x + y * c) hk hs
      exact ⟨h', e, filled_congr fl (fun i j _ _ => congrArg (_ + ·) (mul_comm _ _))⟩
  | mat =>
    cases f with
    | add => exact ⟨fun u hu hs => by cases hu; exact matGo _ hs, fun h => matNo _ (h.resolve_left (by simp [opBin]))⟩
    | sub => exact ⟨fun u hu hs => by cases hu; exact matGo _ hs, fun h => matNo _ (h.resolve_left (by simp [opBin]))⟩
    | amp => exact ⟨fun u hu hs => by simp [opBin] at hu, fun _ => rfl⟩
    | cat c =>
      refine ⟨fun u hu hs => ?_, fun h => matNo _ (h.resolve_left (by simp [opBin]))⟩
      cases hu
      obtain ⟨h', e, fl⟩ := matGo (fun x y => x + y * c) hs
      exact ⟨h', e, filled_congr fl (fun i j _ _ => congrArg (_ + ·) (mul_comm _ _))⟩
  | cvec => exact ⟨fun u hu _ => by simp [opBin] at hu, fun _ => by cases f <;> rfl⟩
  | cmat => exact ⟨fun u hu _ => by simp [opBin] at hu, fun _ => by cases f <;> rfl⟩

/-- What a function of one operand does. -/
theorem un_filled (tol : K) {s : Cl K} {a : Vals K} (g : Agrees s a) (f : Un K) {x z p1 p : Nat} {A C : Arr K}
    (hx : (s.var x).2 = some p1) (hz : (s.var z).2 = some p) (hA : (a.var x).2 = some A) (hC : (a.var z).2 = some C) (k1 : (s.var x).1 = (s.var z).1) :
    (∀ u, opUn tol (s.var z).1 f = some u → SizeEq A C → ∃ h', unK tol (s.var z).1 f p1 p s.h = .ok (h', true) ∧
      Filled s.h h' (buf s.h p) C.ccap C.rows C.cols fun i j => u (s.h.dat (buf s.h p1) (i * A.ccap + j))) ∧
    (opUn tol (s.var z).1 f = none ∨ ¬SizeEq A C → unK tol (s.var z).1 f p1 p s.h = .ok (s.h, false)) := by
  have v1 := g.valid x p1 A hx hA
  have v := g.valid z p C hz hC
  have w1 := g.val x p1 A hx hA
  have w := g.val z p C hz hC
  have s1 := g.stride hx hz hA hC
  have key : ∀ (F : K → K), SizeEq A C → ∃ h', mat2NC F p1 p s.h = .ok h' ∧
      Filled s.h h' (buf s.h p) C.ccap C.rows C.cols fun i j => F (s.h.dat (buf s.h p1) (i * A.ccap + j)) := by
    rintro F ⟨e1, e2⟩
    have u1 := v1
    rw [e1, e2] at u1
    exact mat2NC_ok F u1 v s1
  have keyV : ∀ (F : K → K), (s.var z).1 = .vec → SizeEq A C → ∃ h', vec2NC F p1 p s.h = .ok h' ∧
      Filled s.h h' (buf s.h p) C.ccap C.rows C.cols fun i j => F (s.h.dat (buf s.h p1) (i * A.ccap + j)) := by
    intro F hk hs
    obtain ⟨h', e, fl⟩ := key F hs
    refine ⟨h', ?_, fl⟩
    have r := (w.vec (Or.inl hk)).1
    have u1 := v1
    have u := v
    rw [hs.1, hs.2, r] at u1
    rw [r] at u
    rw [vec2NC_eq F u1 u, e]
  have colNe : (s.var z).1 = .vec → ¬SizeEq A C → A.cols ≠ C.cols := by
    intro hk hs e
    exact hs ⟨(w1.vec (Or.inl (k1.trans hk))).1.trans (w.vec (Or.inl hk)).1.symm, e⟩
  have matNe : ¬SizeEq A C → ¬matSizeEqual ⟨some (buf s.h p1), A.rcap, A.ccap, A.rows, A.cols⟩ ⟨some (buf s.h p), C.rcap, C.ccap, C.rows, C.cols⟩ := fun h c => h c
  have matEq : SizeEq A C → matSizeEqual ⟨some (buf s.h p1), A.rcap, A.ccap, A.rows, A.cols⟩ ⟨some (buf s.h p), C.rcap, C.ccap, C.rows, C.cols⟩ := id
  cases hk : (s.var z).1 with
  | vec =>
    cases f with
    | rev =>
      refine ⟨fun u hu hs => ?_, fun h => ?_⟩
      · cases hu
        obtain ⟨h', e, fl⟩ := keyV (fun x => -x) hk hs
        refine ⟨h', ?_, fl⟩
        simp only [unK, zVecRev, vecCheck2, v1.hd, v.hd, Res.bind]
        rw [if_neg (not_not.mpr hs.2), e]
      · simp only [unK, zVecRev, vecCheck2, v1.hd, v.hd, Res.bind]
        rw [if_pos (colNe hk (h.resolve_left (by simp [opUn])))]
    | mul c =>
      refine ⟨fun u hu hs => ?_, fun h => ?_⟩
      · cases hu
        obtain ⟨h', e, fl⟩ := keyV (fun x => x * c) hk hs
        refine ⟨h', ?_, filled_congr fl (fun i j _ _ => mul_comm _ _)⟩
        simp only [unK, zVecMul, vecCheck2, v1.hd, v.hd, Res.bind]
        rw [if_neg (not_not.mpr hs.2), e]
      · simp only [unK, zVecMul, vecCheck2, v1.hd, v.hd, Res.bind]
        rw [if_pos (colNe hk (h.resolve_left (by simp [opUn])))]
    | div c =>
      by_cases ht : |c| ≤ tol
      · refine ⟨fun u hu _ => by simp [opUn, ht] at hu, fun _ => ?_⟩
        simp only [unK, zVecDiv, v1.hd, v.hd, Res.bind, if_pos ht, ite_self]
      · refine ⟨fun u hu hs => ?_, fun h => ?_⟩
        · simp only [opUn, true_or, if_true, if_neg ht, Option.some.injEq] at hu
          subst hu
          obtain ⟨h', e, fl⟩ := keyV (fun x => x * (1 / c)) hk hs
          refine ⟨h', ?_, filled_congr fl (fun i j _ _ => mul_one_div _ _)⟩
          simp only [unK, zVecDiv, v1.hd, v.hd, Res.bind]
          rw [if_neg (not_not.mpr hs.2), if_neg ht, e]
        · simp only [unK, zVecDiv, v1.hd, v.hd, Res.bind]
          rw [if_pos (colNe hk (h.resolve_left (by simp [opUn, ht])))]
  | mat =>
    cases f with
    | rev =>
      refine ⟨fun u hu hs => ?_, fun h => ?_⟩
      · cases hu
        obtain ⟨h', e, fl⟩ := key (fun x => -x) hs
        refine ⟨h', ?_, fl⟩
        simp only [unK, zMatRev, matCheck2, v1.hd, v.hd, Res.bind]
        rw [if_neg (not_not.mpr (matEq hs)), e]
      · simp only [unK, zMatRev, matCheck2, v1.hd, v.hd, Res.bind]
        rw [if_pos (matNe (h.resolve_left (by simp [opUn])))]
    | mul c =>
      refine ⟨fun u hu hs => ?_, fun h => ?_⟩
      · cases hu
        obtain ⟨h', e, fl⟩ := key (fun x => x * c) hs
        refine ⟨h', ?_, filled_congr fl (fun i j _ _ => mul_comm _ _)⟩
        simp only [unK, zMatMul, matCheck2, v1.hd, v.hd, Res.bind]
        rw [if_neg (not_not.mpr (matEq hs)), e]
      · simp only [unK, zMatMul, matCheck2, v1.hd, v.hd, Res.bind]
        rw [if_pos (matNe (h.resolve_left (by simp [opUn])))]
    | div c =>
      by_cases ht : |c| ≤ tol
      · refine ⟨fun u hu _ => by simp [opUn, ht] at hu, fun _ => ?_⟩
        simp only [unK, zMatDiv, v1.hd, v.hd, Res.bind, if_pos ht, ite_self]
      · refine ⟨fun u hu hs => ?_, fun h => ?_⟩
        · simp only [opUn, or_true, if_true, if_neg ht, Option.some.injEq] at hu
          subst hu
          obtain ⟨h', e, fl⟩ := key (fun x => x * (1 / c)) hs
          refine ⟨h', ?_, filled_congr fl (fun i j _ _ => mul_one_div _ _)⟩
          simp only [unK, zMatDiv, v1.hd, v.hd, Res.bind]
          rw [if_neg (not_not.mpr (matEq hs)), if_neg ht, e]
        · simp only [unK, zMatDiv, v1.hd, v.hd, Res.bind]
          rw [if_pos (matNe (h.resolve_left (by simp [opUn, ht])))]
  | cvec => exact ⟨fun u hu _ => by simp [opUn] at hu, fun _ => by cases f <;> rfl⟩
  | cmat => exact ⟨fun u hu _ => by simp [opUn] at hu, fun _ => by cases f <;> rfl⟩

/-- What a function that sets an object does. -/
theorem put_ok {s : Cl K} {a : Vals K} (g : Agrees s a) (f : Put K) {z p : Nat} {C : Arr K} (hz : (s.var z).2 = some p) (hC : (a.var z).2 = some C) :
    ∃ h', putK (s.var z).1 f p s.h = .ok h' ∧ Agrees { s with h := h' } (a.upd z (opPut (s.var z).1 f)) := by
  have v := g.valid z p C hz hC
  have w := g.val z p C hz hC
  have el : ∀ i j, i < C.rows → j < C.cols → s.h.dat (buf s.h p) (i * C.ccap + j) = C.el i j :=
    fun i j hi hj => w.el i j (by have := w.rows; omega) (by have := w.cols; omega)
  have nop : (∀ C, opPut (s.var z).1 f C = C) → Agrees { s with h := s.h } (a.upd z (opPut (s.var z).1 f)) := fun h => upd_id g z _ (fun C _ => h C)
  cases hk : (s.var z).1 with
  | vec =>
    have r := (w.vec (Or.inl hk)).1
    cases f with
    | zero =>
      obtain ⟨h', e, fl⟩ := matAll_ok (0 : K) v
      refine ⟨h', ?_, agrees_withEl g z p C hz hC h' _ (fun _ _ => 0) fl (fun _ _ _ _ => rfl) _ rfl⟩
      rw [r, forUpM_one, Nat.zero_mul] at e
      simp only [putK, zVecZero, v.hd, Res.bind, bufOf, e]
    | all x =>
      obtain ⟨h', e, fl⟩ := matAll_ok x v
      refine ⟨h', ?_, agrees_withEl g z p C hz hC h' _ (fun _ _ => x) fl (fun _ _ _ _ => rfl) _ rfl⟩
      rw [r, forUpM_one, Nat.zero_mul] at e
      simp only [putK, zVecSetAll, v.hd, Res.bind, bufOf, e]
    | touchup t =>
      obtain ⟨h', e, fl⟩ := matTouchup_ok t v
      refine ⟨h', ?_, agrees_withEl g z p C hz hC h' _ (fun i j => if |C.el i j| ≤ t then 0 else C.el i j) fl (fun i j hi hj => by rw [el i j hi hj]) _ rfl⟩
      rw [r, forUpM_one, Nat.zero_mul] at e
      simp only [putK, zVecTouchup, v.hd, Res.bind, bufOf, e]
    | ident => exact ⟨s.h, rfl, by rw [← hk]; exact nop (fun C => by simp [opPut, hk])⟩
  | mat =>
    cases f with
    | zero =>
      obtain ⟨h', e, fl⟩ := matAll_ok (0 : K) v
      refine ⟨h', ?_, agrees_withEl g z p C hz hC h' _ (fun _ _ => 0) fl (fun _ _ _ _ => rfl) _ rfl⟩
      simp only [putK, zMatZero, v.hd, Res.bind, bufOf, e]
    | all x => exact ⟨s.h, rfl, by rw [← hk]; exact nop (fun C => by simp [opPut, hk])⟩
    | touchup t =>
      obtain ⟨h', e, fl⟩ := matTouchup_ok t v
      refine ⟨h', ?_, agrees_withEl g z p C hz hC h' _ (fun i j => if |C.el i j| ≤ t then 0 else C.el i j) fl (fun i j hi hj => by rw [el i j hi hj]) _ rfl⟩
      simp only [putK, zMatTouchup, v.hd, Res.bind, bufOf, e]
    | ident =>
      by_cases hs : C.rows = C.cols
      · obtain ⟨h', e, fl⟩ := ident_ok v
        refine ⟨h', ?_, agrees_withEl g z p C hz hC h' _ (fun i j => if i = j then 1 else 0) fl (fun _ _ _ _ => rfl) _ (if_pos ⟨rfl, hs⟩)⟩
        simp only [putK, zMatIdent, v.hd, Res.bind, if_neg (not_not.mpr hs), e]
      · refine ⟨s.h, ?_, upd_id g z _ (fun C' hC' => ?_)⟩
        · simp only [putK, zMatIdent, v.hd, Res.bind, if_pos hs]
        · rw [hC] at hC'
          cases hC'
          simp only [opPut]
          rw [if_neg (fun c => hs c.2)]
  | cvec => exact ⟨s.h, by cases f <;> rfl, by rw [← hk]; exact nop (fun C => by cases f <;> simp [opPut, hk])⟩
  | cmat => exact ⟨s.h, by cases f <;> rfl, by rw [← hk]; exact nop (fun C => by cases f <;> simp [opPut, hk])⟩

theorem Agrees.some {s : Cl K} {a : Vals K} (g : Agrees s a) {x p : Nat} (hx : (s.var x).2 = some p) : ∃ A, (a.var x).2 = some A := by
  cases h : (a.var x).2 with
  | none => exact absurd ((g.null x).2 h) (by rw [hx]; simp)
  | some A => exact ⟨A, rfl⟩

/-- One step of a client. -/
theorem astep_ok (tol : K) (avail : Nat → Bool) {s : Cl K} {a : Vals K} (g : Agrees s a) (o : AOp K) (hf : AFits a o) :
    ∃ s' got, astep tol avail s o = .ok s' ∧ Agrees s' (aspec tol got a o) ∧ (got = false → Refused avail s.h) := by
  cases o with
  | base o => exact step_ok avail g o hf
  | bin f x y z =>
    simp only [astep, aspec]
    rw [← g.kind x, ← g.kind y, ← g.kind z]
    by_cases hk : (s.var x).1 = (s.var z).1 ∧ (s.var y).1 = (s.var z).1
    · rw [if_pos hk, if_pos hk]
      cases hx : (s.var x).2 with
      | none => exact ⟨s, true, rfl, by rw [(g.null x).1 hx]; unfold specBin; split <;> first | exact g | contradiction, by simp⟩
      | some p1 =>
        obtain ⟨A, hA⟩ := g.some hx
        cases hy : (s.var y).2 with
        | none => exact ⟨s, true, rfl, by rw [(g.null y).1 hy]; unfold specBin; split <;> first | exact g | contradiction, by simp⟩
        | some p2 =>
          obtain ⟨B, hB⟩ := g.some hy
          cases hz : (s.var z).2 with
          | none =>
            refine ⟨s, true, rfl, ?_, by simp⟩
            unfold specBin
            split
            · rw [upd_none _ _ _ ((g.null z).1 hz)]; exact g
            · exact g
          | some p =>
            obtain ⟨C, hC⟩ := g.some hz
            obtain ⟨b1, b2⟩ := bin_filled g f hx hy hz hA hB hC hk.1 hk.2
            rw [hA, hB]
            cases ho : opBin (s.var z).1 f with
            | none =>
              refine ⟨{ s with h := s.h }, true, by simp only [b2 (Or.inl ho), Res.bind], ?_, by simp⟩
              exact g
            | some u =>
              simp only [specBin]
              by_cases hs : SizeEq A C ∧ SizeEq B C
              · obtain ⟨h', e, fl⟩ := b1 u ho hs
                refine ⟨{ s with h := h' }, true, by simp only [e, Res.bind], ?_, by simp⟩
                refine agrees_withEl g z p C hz hC h' _ (fun i j => u (A.el i j) (B.el i j)) fl ?_ _ (if_pos hs)
                intro i j hi hj
                have wA := g.val x p1 A hx hA
                have wB := g.val y p2 B hy hB
                have a1 := wA.rows
                have a2 := wA.cols
                have a3 := wB.rows
                have a4 := wB.cols
                have s1 := hs.1.1
                have s2 := hs.1.2
                have s3 := hs.2.1
                have s4 := hs.2.2
                rw [wA.el i j (by omega) (by omega), wB.el i j (by omega) (by omega)]
              · refine ⟨{ s with h := s.h }, true, by simp only [b2 (Or.inr hs), Res.bind], ?_, by simp⟩
                refine upd_id g z _ (fun C' hC' => ?_)
                rw [hC] at hC'
                cases hC'
                exact if_neg hs
    · rw [if_neg hk, if_neg hk]
      exact ⟨s, true, rfl, g, by simp⟩
  | un f x z =>
    simp only [astep, aspec]
    rw [← g.kind x, ← g.kind z]
    by_cases hk : (s.var x).1 = (s.var z).1
    · rw [if_pos hk, if_pos hk]
      cases hx : (s.var x).2 with
      | none => exact ⟨s, true, rfl, by rw [(g.null x).1 hx]; unfold specUn; split <;> first | exact g | contradiction, by simp⟩
      | some p1 =>
        obtain ⟨A, hA⟩ := g.some hx
        cases hz : (s.var z).2 with
        | none =>
          refine ⟨s, true, rfl, ?_, by simp⟩
          unfold specUn
          split
          · rw [upd_none _ _ _ ((g.null z).1 hz)]; exact g
          · exact g
        | some p =>
          obtain ⟨C, hC⟩ := g.some hz
          obtain ⟨b1, b2⟩ := un_filled tol g f hx hz hA hC hk
          rw [hA]
          cases ho : opUn tol (s.var z).1 f with
          | none =>
            refine ⟨{ s with h := s.h }, true, by simp only [b2 (Or.inl ho), Res.bind], ?_, by simp⟩
            exact g
          | some u =>
            simp only [specUn]
            by_cases hs : SizeEq A C
            · obtain ⟨h', e, fl⟩ := b1 u ho hs
              refine ⟨{ s with h := h' }, true, by simp only [e, Res.bind], ?_, by simp⟩
              refine agrees_withEl g z p C hz hC h' _ (fun i j => u (A.el i j)) fl ?_ _ (if_pos hs)
              intro i j hi hj
              have wA := g.val x p1 A hx hA
              have a1 := wA.rows
              have a2 := wA.cols
              have s1 := hs.1
              have s2 := hs.2
              rw [wA.el i j (by omega) (by omega)]
            · refine ⟨{ s with h := s.h }, true, by simp only [b2 (Or.inr hs), Res.bind], ?_, by simp⟩
              refine upd_id g z _ (fun C' hC' => ?_)
              rw [hC] at hC'
              cases hC'
              exact if_neg hs
    · rw [if_neg hk, if_neg hk]
      exact ⟨s, true, rfl, g, by simp⟩
  | put f z =>
    simp only [astep, aspec]
    rw [← g.kind z]
    cases hz : (s.var z).2 with
    | none => exact ⟨s, true, rfl, by rw [upd_none _ _ _ ((g.null z).1 hz)]; exact g, by simp⟩
    | some p =>
      obtain ⟨C, hC⟩ := g.some hz
      obtain ⟨h', e, ag⟩ := put_ok g f hz hC
      exact ⟨{ s with h := h' }, true, by simp only [e, Res.bind], ag, by simp⟩

/-! ## Histories -/

/-- The values along a history. -/
def aspecRun (tol : K) : List (AOp K) → List Bool → Vals K → Vals K
  | o :: l, b :: bs, a => aspecRun tol l bs (aspec tol b a o)
  | _, _, a => a

/-- The obligations of the client along a history, whether memory is given out or not. -/
def AAllFit (tol : K) : List (AOp K) → Vals K → Prop
  | [], _ => True
  | o :: l, a => AFits a o ∧ ∀ got, AAllFit tol l (aspec tol got a o)

theorem arun_ok (tol : K) (avail : Nat → Bool) (l : List (AOp K)) : ∀ (s : Cl K) (a : Vals K), Agrees s a → AAllFit tol l a →
    ∃ s' gots, arun tol avail l s = .ok s' ∧ gots.length = l.length ∧ Agrees s' (aspecRun tol l gots a) ∧ ((∀ n, avail n = true) → ∀ b ∈ gots, b = true) := by
  induction l with
  | nil => intro s a g _; exact ⟨s, [], rfl, rfl, g, by simp⟩
  | cons o l ih =>
    intro s a g hf
    obtain ⟨s1, got, e, g1, hr⟩ := astep_ok tol avail g o hf.1
    obtain ⟨s2, gots, e2, hl, g2, hr2⟩ := ih s1 _ g1 (hf.2 got)
    refine ⟨s2, got :: gots, by simp only [arun, e, Res.bind, e2], by simp [hl], g2, ?_⟩
    intro ha b hb
    rcases List.mem_cons.1 hb with rfl | hb
    · cases h : b
      · rcases hr h with h1 | h1 <;> rw [ha] at h1 <;> cases h1
      · rfl
    · exact hr2 ha b hb

/-- C237: whatever a client computes with vectors and matrices between creating, copying, resizing and releasing them, with any of the operands and the
destination being the same object, with any margins, and whichever allocations fail: no undefined behaviour occurs, and every variable stands for the value which
arithmetic on values computes from the values before; sizes that differ, and tiny divisors, change nothing. -/
theorem arith_history (tol : K) (avail : Nat → Bool) (l : List (AOp K)) (t next : Nat) (hdr : Nat → Hdr) (len : Nat → Nat) (d : Nat → Nat → K) (hf : AAllFit tol l []) :
    ∃ s gots, arun tol avail l ⟨[], ⟨t, next, [], hdr, len, d⟩⟩ = .ok s ∧ gots.length = l.length ∧ Agrees s (aspecRun tol l gots []) ∧
      ((∀ n, avail n = true) → ∀ b ∈ gots, b = true) :=
  arun_ok tol avail l _ _ (agrees_empty d hdr len t next) hf

/-- C237: the answers of the functions of two operands: the null pointer exactly when the sizes differ or there is no such function. -/
theorem bin_answer {s : Cl K} {a : Vals K} (g : Agrees s a) (f : Bin K) {x y z p1 p2 p : Nat} {A B C : Arr K}
    (hx : (s.var x).2 = some p1) (hy : (s.var y).2 = some p2) (hz : (s.var z).2 = some p)
    (hA : (a.var x).2 = some A) (hB : (a.var y).2 = some B) (hC : (a.var z).2 = some C)
    (k1 : (s.var x).1 = (s.var z).1) (k2 : (s.var y).1 = (s.var z).1) :
    ∃ h', binK (s.var z).1 f p1 p2 p s.h = .ok (h', decide ((opBin (s.var z).1 f).isSome ∧ SizeEq A C ∧ SizeEq B C)) := by
  obtain ⟨b1, b2⟩ := bin_filled g f hx hy hz hA hB hC k1 k2
  cases ho : opBin (s.var z).1 f with
  | none => exact ⟨s.h, by rw [b2 (Or.inl ho)]; simp⟩
  | some u =>
    by_cases hs : SizeEq A C ∧ SizeEq B C
    · obtain ⟨h', e, _⟩ := b1 u ho hs
      exact ⟨h', by rw [e]; simp [hs]⟩
    · exact ⟨s.h, by rw [b2 (Or.inr hs)]; simp only [Option.isSome_some, true_and, decide_eq_false hs]⟩

/-- C237: the answers of the functions of one operand. -/
theorem un_answer (tol : K) {s : Cl K} {a : Vals K} (g : Agrees s a) (f : Un K) {x z p1 p : Nat} {A C : Arr K}
    (hx : (s.var x).2 = some p1) (hz : (s.var z).2 = some p) (hA : (a.var x).2 = some A) (hC : (a.var z).2 = some C) (k1 : (s.var x).1 = (s.var z).1) :
    ∃ h', unK tol (s.var z).1 f p1 p s.h = .ok (h', decide ((opUn tol (s.var z).1 f).isSome ∧ SizeEq A C)) := by
  obtain ⟨b1, b2⟩ := un_filled tol g f hx hz hA hC k1
  cases ho : opUn tol (s.var z).1 f with
  | none => exact ⟨s.h, by rw [b2 (Or.inl ho)]; simp⟩
  | some u =>
    by_cases hs : SizeEq A C
    · obtain ⟨h', e, _⟩ := b1 u ho hs
      exact ⟨h', by rw [e]; simp [hs]⟩
    · exact ⟨s.h, by rw [b2 (Or.inr hs)]; simp only [Option.isSome_some, true_and, decide_eq_false hs]⟩

/-! ## Not vacuous -/

/-- A matrix with a margin is added to itself, and then to another one. -/
def exArith : List (AOp ℚ) := [.base (.create .mat 2 3 [1, 2, 3, 4, 5, 6]), .base (.resize 0 2 2), .base (.create .mat 2 2 [10, 20, 30, 40]),
  .bin .add 0 0 0, .bin (.cat 2) 1 0 1, .un (.div 2) 1 0, .base (.alloc .mat 2 2), .put .ident 2, .bin .sub 2 0 2, .put (.touchup 15) 2, .bin .amp 0 0 0]

def exArithRead (x : Nat) : Res (List ℚ) :=
  (arun 0 (fun _ => true) exArith ⟨[], ⟨0, 0, [], fun _ => {}, fun _ => 0, fun _ _ => 7⟩⟩).bind fun s =>
  match (s.var x).2 with
  | some p => (zMatElem p 0 0 s.h).bind fun a => (zMatElem p 0 1 s.h).bind fun b => (zMatElem p 1 0 s.h).bind fun c => (zMatElem p 1 1 s.h).bind fun d => .ok [a, b, c, d]
  | none => .fail

example : AAllFit 0 exArith ([] : Vals ℚ) := by
  simp [AAllFit, AFits, Fits, exArith, rowsOf]

example : exArithRead 0 = .ok [7, 14, 23, 30] ∧ exArithRead 1 = .ok [14, 28, 46, 60] ∧ exArithRead 2 = .ok [0, 0, -23, -29] := by
  refine ⟨?_, ?_, ?_⟩ <;> decide +kernel

end Zm.Obj
