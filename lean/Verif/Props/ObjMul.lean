import Verif.Model.ObjMul
import Verif.Props.ObjArith
import Mathlib.Algebra.BigOperators.Group.Finset.Basic

/-! # C238: products and transposition of vectors and matrices as objects -/

set_option linter.unusedSectionVars false

namespace Zm.Obj
variable {K : Type*} [Field K] [LinearOrder K] [IsStrictOrderedRing K]

/-! ## Specification: products of values -/

/-- The sizes for which a product is defined and is of the size of the destination. -/
def MulFits (f : Prd) (A B C : Arr K) : Prop :=
  match f with
  | .mv => A.cols = B.cols ∧ C.cols = A.rows
  | .mtv => A.rows = B.cols ∧ C.cols = A.cols
  | .mm => A.cols = B.rows ∧ C.rows = A.rows ∧ C.cols = B.cols
  | .mmt => A.cols = B.cols ∧ C.rows = A.rows ∧ C.cols = B.rows
  | .mtm => A.rows = B.rows ∧ C.rows = A.cols ∧ C.cols = B.cols
instance (f : Prd) (A B C : Arr K) : Decidable (MulFits f A B C) := by cases f <;> unfold MulFits <;> infer_instance

/-- The elements of `A b`, `Aᵀ b`, `A B`, `A Bᵀ` and `Aᵀ B`; a vector is a row. -/
def mulEl (f : Prd) (A B : Arr K) (i j : Nat) : K :=
  match f with
  | .mv => ∑ k ∈ Finset.range A.cols, A.el j k * B.el 0 k
  | .mtv => ∑ k ∈ Finset.range A.rows, A.el k j * B.el 0 k
  | .mm => ∑ k ∈ Finset.range A.cols, A.el i k * B.el k j
  | .mmt => ∑ k ∈ Finset.range A.cols, A.el i k * B.el j k
  | .mtm => ∑ k ∈ Finset.range A.rows, A.el k i * B.el k j

/-- The values after a product. -/
def specMul (s : Vals K) (f : Prd) (z : Nat) (A B : Option (Arr K)) : Vals K :=
  match A, B with
  | some A, some B => s.upd z fun C => if MulFits f A B C then withEl C (mulEl f A B) else C
  | _, _ => s

/-- The values after a transposition. -/
def specT (s : Vals K) (z : Nat) (A : Option (Arr K)) : Vals K :=
  match A with
  | some A => s.upd z fun C => if C.rows = A.cols ∧ C.cols = A.rows then withEl C fun i j => A.el j i else C
  | none => s

/-- Which classes a product takes. -/
def MulKinds (f : Prd) (k1 k2 k : Kind) : Prop :=
  if f = .mv ∨ f = .mtv then k1 = .mat ∧ k2 = .vec ∧ k = .vec else k1 = .mat ∧ k2 = .mat ∧ k = .mat
instance (f : Prd) (k1 k2 k : Kind) : Decidable (MulKinds f k1 k2 k) := by unfold MulKinds; infer_instance

/-- The values after one step. -/
def mspec (tol : K) (got : Bool) (s : Vals K) (o : MOp K) : Vals K :=
  match o with
  | .base o => aspec tol got s o
  | .mul f x y z => if MulKinds f (s.var x).1 (s.var y).1 (s.var z).1 then specMul s f z (s.var x).2 (s.var y).2 else s
  | .trans x z => if (s.var x).1 = .mat ∧ (s.var z).1 = .mat then specT s z (s.var x).2 else s

/-- The obligation of the client: the destination of a product and of a transposition is none of its operands. -/
def MFits (s : Vals K) (o : MOp K) : Prop :=
  match o with
  | .base o => AFits s o
  | .mul _ x y z => x ≠ z ∧ y ≠ z
  | .trans x z => x ≠ z

/-! ## Sums -/

theorem comp_ok (n : Nat) (e1 e2 : Nat → Res K) (u w : Nat → K) (h1 : ∀ k < n, e1 k = .ok (u k)) (h2 : ∀ k < n, e2 k = .ok (w k)) :
    ((forUpM 0 n (fun k (a : Comp K) => (e1 k).bind fun x => (e2 k).bind fun y => .ok (a.add (x * y))) ⟨0, 0, 0⟩).bind fun a => .ok (a.s + a.q)) =
      .ok (∑ k ∈ Finset.range n, u k * w k) := by
  obtain ⟨a, e, ha⟩ := forUpM_ok (lo := 0) (hi := n) (fun k (a : Comp K) => (e1 k).bind fun x => (e2 k).bind fun y => .ok (a.add (x * y))) ⟨0, 0, 0⟩
    (fun n a => a.p = a.s ∧ a.s + a.q = ∑ k ∈ Finset.range n, u k * w k) (Nat.zero_le _) (by simp) (by
      intro k a _ hk ha
      refine ⟨a.add (u k * w k), by simp only [h1 k hk, h2 k hk, Res.bind], rfl, ?_⟩
      rw [Finset.sum_range_succ, ← ha.2, ← ha.1]
      simp only [Comp.add]
      ring)
  rw [e]
  simp only [Res.bind, ha.2]

theorem rawInner_ok (b1 i1 b2 i2 n : Nat) (h : Hp K) (u w : Nat → K) (h1 : ∀ k < n, rd h b1 (i1 + k) = .ok (u k)) (h2 : ∀ k < n, rd h b2 (i2 + k) = .ok (w k)) :
    rawInner b1 i1 b2 i2 n h = .ok (∑ k ∈ Finset.range n, u k * w k) := comp_ok n _ _ u w h1 h2

theorem rawColInner_ok (m cap v iv n j : Nat) (h : Hp K) (u w : Nat → K) (h1 : ∀ k < n, rd h m (k * cap + j) = .ok (u k)) (h2 : ∀ k < n, rd h v (iv + k) = .ok (w k)) :
    rawColInner m cap v iv n j h = .ok (∑ k ∈ Finset.range n, u k * w k) := comp_ok n _ _ u w h1 h2

/-- Writing one place. -/
def put1 (h : Hp K) (b k : Nat) (x : K) : Hp K := { h with dat := fun b' k' => if b' = b ∧ k' = k then x else h.dat b' k' }

theorem wr_put1 (h : Hp K) (b k : Nat) (x : K) (hb : b ∈ h.live) (hk : k < h.len b) : wr h b k x = .ok (put1 h b k x) := by
  unfold wr; rw [if_pos ⟨hb, hk⟩]; rfl

theorem put1_put1 (h : Hp K) (b k : Nat) (x y : K) : put1 (put1 h b k x) b k y = put1 h b k y := by
  unfold put1
  dsimp only
  congr 1
  funext b' k'
  split <;> rfl

theorem rd_put1_ne (h : Hp K) (b k : Nat) (x : K) (b' k' : Nat) (hne : b' ≠ b) : rd (put1 h b k x) b' k' = rd h b' k' := by
  unfold rd put1
  dsimp only
  simp only [hne, false_and, if_false]

theorem rd_put1_eq (h : Hp K) (b k : Nat) (x : K) (hb : b ∈ h.live) (hk : k < h.len b) : rd (put1 h b k x) b k = .ok x := by
  unfold rd put1
  dsimp only
  rw [if_pos ⟨hb, hk⟩, if_pos ⟨rfl, rfl⟩]

theorem accum_ok (m1 cap1 i m2 cap2 j n m k : Nat) (h : Hp K) (u w : Nat → K) (hb : m ∈ h.live) (hk : k < h.len m) (n1 : m1 ≠ m) (n2 : m2 ≠ m)
    (h1 : ∀ l < n, rd h m1 (l * cap1 + i) = .ok (u l)) (h2 : ∀ l < n, rd h m2 (l * cap2 + j) = .ok (w l)) :
    accum m1 cap1 i m2 cap2 j n m k h = wr h m k (∑ l ∈ Finset.range n, u l * w l) := by
  unfold accum
  rw [wr_put1 h m k 0 hb hk, wr_put1 h m k _ hb hk]
  show forUpM 0 n _ (put1 h m k 0) = _
  refine Exists.elim (forUpM_ok (lo := 0) (hi := n) (fun l h => (rd h m k).bind fun z => (rd h m1 (l * cap1 + i)).bind fun x =>
    (rd h m2 (l * cap2 + j)).bind fun y => wr h m k (z + x * y)) (put1 h m k 0) (fun n t => t = put1 h m k (∑ l ∈ Finset.range n, u l * w l)) (Nat.zero_le _) (by simp) ?_) ?_
  · rintro l t _ hl rfl
    refine ⟨_, ?_, rfl⟩
    rw [rd_put1_eq h m k _ hb hk]
    simp only [Res.bind]
    rw [rd_put1_ne _ _ _ _ _ _ n1, h1 l hl]
    simp only
    rw [rd_put1_ne _ _ _ _ _ _ n2, h2 l hl]
    simp only
    rw [wr_put1 _ _ _ _ (by exact hb) (by exact hk), put1_put1, Finset.sum_range_succ]
  · rintro t ⟨e, rfl⟩
    exact e

/-! ## Steps -/

/-- What a product does. -/
theorem mul_filled {s : Cl K} {a : Vals K} (g : Agrees s a) (f : Prd) {x y z p1 p2 p : Nat} {A B C : Arr K}
    (hx : (s.var x).2 = some p1) (hy : (s.var y).2 = some p2) (hz : (s.var z).2 = some p)
    (hA : (a.var x).2 = some A) (hB : (a.var y).2 = some B) (hC : (a.var z).2 = some C)
    (k2 : (s.var y).1 = prdKind f) (k3 : (s.var z).1 = prdKind f) (n1 : x ≠ z) (n2 : y ≠ z) :
    (MulFits f A B C → ∃ h', prd f p1 p2 p s.h = .ok (h', true) ∧ Filled s.h h' (buf s.h p) C.ccap C.rows C.cols (mulEl f A B)) ∧
    (¬MulFits f A B C → prd f p1 p2 p s.h = .ok (s.h, false)) := by
  have v1 := g.valid x p1 A hx hA
  have v2 := g.valid y p2 B hy hB
  have v := g.valid z p C hz hC
  have w1 := g.val x p1 A hx hA
  have w2 := g.val y p2 B hy hB
  have w := g.val z p C hz hC
  have d1 := (g.disj x z p1 p n1 hx hz).2.2
  have d2 := (g.disj y z p2 p n2 hy hz).2.2
  have r1 : ∀ (G : Nat → Nat → K) (n i j : Nat), i < A.rows → j < A.cols →
      rd (pre s.h (buf s.h p) C.ccap C.cols G n) (buf s.h p1) (i * A.ccap + j) = .ok (A.el i j) := fun G n i j hi hj => by
    rw [rd_pre _ _ _ _ _ _ _ _ v1.bl (v1.cell i j hi hj) d1, w1.el i j (lt_of_lt_of_le hi w1.rows) (lt_of_lt_of_le hj w1.cols)]
  have r2 : ∀ (G : Nat → Nat → K) (n i j : Nat), i < B.rows → j < B.cols →
      rd (pre s.h (buf s.h p) C.ccap C.cols G n) (buf s.h p2) (i * B.ccap + j) = .ok (B.el i j) := fun G n i j hi hj => by
    rw [rd_pre _ _ _ _ _ _ _ _ v2.bl (v2.cell i j hi hj) d2, w2.el i j (lt_of_lt_of_le hi w2.rows) (lt_of_lt_of_le hj w2.cols)]
  have chk : prdCheck f ⟨some (buf s.h p1), A.rcap, A.ccap, A.rows, A.cols⟩ ⟨some (buf s.h p2), B.rcap, B.ccap, B.rows, B.cols⟩
      ⟨some (buf s.h p), C.rcap, C.ccap, C.rows, C.cols⟩ ↔ MulFits f A B C := by
    cases f <;> simp only [prdCheck, MulFits] <;> constructor <;> intro h <;> omega
  refine ⟨fun hs => ?_, fun hs => ?_⟩
  · have key : ∃ h', prdNC f ⟨some (buf s.h p1), A.rcap, A.ccap, A.rows, A.cols⟩ ⟨some (buf s.h p2), B.rcap, B.ccap, B.rows, B.cols⟩
        ⟨some (buf s.h p), C.rcap, C.ccap, C.rows, C.cols⟩ s.h = .ok h' ∧ Filled s.h h' (buf s.h p) C.ccap C.rows C.cols (mulEl f A B) := by
      simp only [prdNC, bufOf, Res.bind]
      cases f with
      | mv =>
        obtain ⟨s1, s2⟩ := hs
        have b1 := (w2.vec (Or.inl k2)).1
        have b2 := (w.vec (Or.inl k3)).1
        obtain ⟨h', e, fl⟩ := fill s.h (buf s.h p) C.ccap C.rows C.cols (mulEl .mv A B) (fun i j h => rawInner (buf s.h p1) (j * A.ccap) (buf s.h p2) 0 A.cols h)
          v.bl v.cols v.cell (fun i j n hi hj => rawInner_ok _ _ _ _ _ _ (fun k => A.el j k) (fun k => B.el 0 k)
            (fun k hk => r1 _ _ _ _ (by omega) hk) (fun k hk => by have := r2 (mulEl .mv A B) n 0 k (by omega) (by omega); rwa [Nat.zero_mul] at this))
        refine ⟨h', ?_, fl⟩
        rw [b2, forUpM_one, s2] at e
        simp only [Nat.zero_mul] at e
        exact e
      | mtv =>
        obtain ⟨s1, s2⟩ := hs
        have b1 := (w2.vec (Or.inl k2)).1
        have b2 := (w.vec (Or.inl k3)).1
        obtain ⟨h', e, fl⟩ := fill s.h (buf s.h p) C.ccap C.rows C.cols (mulEl .mtv A B) (fun i j h => rawColInner (buf s.h p1) A.ccap (buf s.h p2) 0 A.rows j h)
          v.bl v.cols v.cell (fun i j n hi hj => rawColInner_ok _ _ _ _ _ _ _ (fun k => A.el k j) (fun k => B.el 0 k)
            (fun k hk => r1 _ _ _ _ hk (by omega)) (fun k hk => by have := r2 (mulEl .mtv A B) n 0 k (by omega) (by omega); rwa [Nat.zero_mul] at this))
        refine ⟨h', ?_, fl⟩
        rw [b2, forUpM_one, s2] at e
        simp only [Nat.zero_mul] at e
        exact e
      | mm =>
        obtain ⟨s1, s2, s3⟩ := hs
        obtain ⟨h', e, fl⟩ := fill s.h (buf s.h p) C.ccap C.rows C.cols (mulEl .mm A B) (fun i j h => rawColInner (buf s.h p2) B.ccap (buf s.h p1) (i * A.ccap) B.rows j h)
          v.bl v.cols v.cell (fun i j n hi hj => (rawColInner_ok _ _ _ _ _ _ _ (fun k => B.el k j) (fun k => A.el i k)
            (fun k hk => r2 _ _ _ _ hk (by omega)) (fun k hk => r1 _ _ _ _ (by omega) (by omega))).trans
              (by simp only [mulEl, s1, mul_comm]))
        refine ⟨h', ?_, fl⟩
        rw [s2, s3] at e
        exact e
      | mmt =>
        obtain ⟨s1, s2, s3⟩ := hs
        obtain ⟨h', e, fl⟩ := fill s.h (buf s.h p) C.ccap C.rows C.cols (mulEl .mmt A B) (fun i j h => rawInner (buf s.h p2) (j * B.ccap) (buf s.h p1) (i * A.ccap) B.cols h)
          v.bl v.cols v.cell (fun i j n hi hj => (rawInner_ok _ _ _ _ _ _ (fun k => B.el j k) (fun k => A.el i k)
            (fun k hk => r2 _ _ _ _ (by omega) hk) (fun k hk => r1 _ _ _ _ (by omega) (by omega))).trans
              (by simp only [mulEl, s1, mul_comm]))
        refine ⟨h', ?_, fl⟩
        rw [s2, s3] at e
        exact e
      | mtm =>
        obtain ⟨s1, s2, s3⟩ := hs
        obtain ⟨h', e, fl⟩ := fillNow s.h (buf s.h p) C.ccap C.rows C.cols (mulEl .mtm A B)
          (fun i j h => accum (buf s.h p1) A.ccap i (buf s.h p2) B.ccap j A.rows (buf s.h p) (i * C.ccap + j) h)
          v.bl v.cols v.cell (fun i j hi hj => accum_ok _ _ _ _ _ _ _ _ _ _ (fun k => A.el k i) (fun k => B.el k j) v.bl (v.cell i j hi hj) d1 d2
            (fun k hk => r1 _ _ _ _ hk (by omega)) (fun k hk => r2 _ _ _ _ (by omega) (by omega)))
        refine ⟨h', ?_, fl⟩
        rw [s2, s3] at e
        exact e
    obtain ⟨h', e, fl⟩ := key
    refine ⟨h', ?_, fl⟩
    simp only [prd, v1.hd, v2.hd, v.hd, Res.bind]
    rw [if_neg (not_not.mpr (chk.2 hs)), e]
  · simp only [prd, v1.hd, v2.hd, v.hd, Res.bind]
    rw [if_pos (fun c => hs (chk.1 c))]

/-- What a transposition does. -/
theorem trans_filled {s : Cl K} {a : Vals K} (g : Agrees s a) {x z p1 p : Nat} {A C : Arr K}
    (hx : (s.var x).2 = some p1) (hz : (s.var z).2 = some p) (hA : (a.var x).2 = some A) (hC : (a.var z).2 = some C) (n1 : x ≠ z) :
    (C.rows = A.cols ∧ C.cols = A.rows → ∃ h', zMatT p1 p s.h = .ok (h', true) ∧ Filled s.h h' (buf s.h p) C.ccap C.rows C.cols fun i j => A.el j i) ∧
    (¬(C.rows = A.cols ∧ C.cols = A.rows) → zMatT p1 p s.h = .ok (s.h, false)) := by
  have v1 := g.valid x p1 A hx hA
  have v := g.valid z p C hz hC
  have w1 := g.val x p1 A hx hA
  have d1 := (g.disj x z p1 p n1 hx hz).2.2
  simp only [zMatT, v1.hd, v.hd, Res.bind]
  refine ⟨fun hs => ?_, fun hs => ?_⟩
  · rw [if_neg (by omega)]
    have v' := v
    rw [hs.1, hs.2] at v'
    obtain ⟨h', e, fl⟩ := matTNC_ok v1 v' d1
    refine ⟨h', by rw [e], ?_⟩
    rw [hs.1, hs.2]
    exact filled_congr fl (fun i j hi hj => w1.el j i (lt_of_lt_of_le hj w1.rows) (lt_of_lt_of_le hi w1.cols))
  · rw [if_pos (by omega)]

theorem kinds_iff (f : Prd) (k1 k2 k : Kind) : MulKinds f k1 k2 k ↔ k1 = .mat ∧ k2 = prdKind f ∧ k = prdKind f := by
  cases f <;> simp [MulKinds, prdKind]

/-- One step of a client. -/
theorem mstep_ok (tol : K) (avail : Nat → Bool) {s : Cl K} {a : Vals K} (g : Agrees s a) (o : MOp K) (hf : MFits a o) :
    ∃ s' got, mstep tol avail s o = .ok s' ∧ Agrees s' (mspec tol got a o) ∧ (got = false → Refused avail s.h) := by
  cases o with
  | base o => exact astep_ok tol avail g o hf
  | mul f x y z =>
    simp only [mstep, mspec, kinds_iff]
    rw [← g.kind x, ← g.kind y, ← g.kind z]
    by_cases hk : (s.var x).1 = .mat ∧ (s.var y).1 = prdKind f ∧ (s.var z).1 = prdKind f
    · rw [if_pos hk, if_pos hk]
      cases hx : (s.var x).2 with
      | none => exact ⟨s, true, rfl, by rw [(g.null x).1 hx]; exact g, by simp⟩
      | some p1 =>
        obtain ⟨A, hA⟩ := g.some hx
        cases hy : (s.var y).2 with
        | none => exact ⟨s, true, rfl, by rw [(g.null y).1 hy, hA]; exact g, by simp⟩
        | some p2 =>
          obtain ⟨B, hB⟩ := g.some hy
          cases hz : (s.var z).2 with
          | none =>
            refine ⟨s, true, rfl, ?_, by simp⟩
            rw [hA, hB]
            simp only [specMul]
            rw [upd_none _ _ _ ((g.null z).1 hz)]; exact g
          | some p =>
            obtain ⟨C, hC⟩ := g.some hz
            obtain ⟨b1, b2⟩ := mul_filled g f hx hy hz hA hB hC hk.2.1 hk.2.2 hf.1 hf.2
            rw [hA, hB]
            simp only [specMul]
            by_cases hs : MulFits f A B C
            · obtain ⟨h', e, fl⟩ := b1 hs
              exact ⟨{ s with h := h' }, true, by simp only [e, Res.bind],
                agrees_withEl g z p C hz hC h' _ (mulEl f A B) fl (fun _ _ _ _ => rfl) _ (if_pos hs), by simp⟩
            · refine ⟨{ s with h := s.h }, true, by simp only [b2 hs, Res.bind], upd_id g z _ (fun C' hC' => ?_), by simp⟩
              rw [hC] at hC'
              cases hC'
              exact if_neg hs
    · rw [if_neg hk, if_neg hk]
      exact ⟨s, true, rfl, g, by simp⟩
  | trans x z =>
    simp only [mstep, mspec]
    rw [← g.kind x, ← g.kind z]
    by_cases hk : (s.var x).1 = .mat ∧ (s.var z).1 = .mat
    · rw [if_pos hk, if_pos hk]
      cases hx : (s.var x).2 with
      | none => exact ⟨s, true, rfl, by rw [(g.null x).1 hx]; exact g, by simp⟩
      | some p1 =>
        obtain ⟨A, hA⟩ := g.some hx
        cases hz : (s.var z).2 with
        | none =>
          refine ⟨s, true, rfl, ?_, by simp⟩
          rw [hA]
          simp only [specT]
          rw [upd_none _ _ _ ((g.null z).1 hz)]; exact g
        | some p =>
          obtain ⟨C, hC⟩ := g.some hz
          obtain ⟨b1, b2⟩ := trans_filled g hx hz hA hC hf
          rw [hA]
          simp only [specT]
          by_cases hs : C.rows = A.cols ∧ C.cols = A.rows
          · obtain ⟨h', e, fl⟩ := b1 hs
            exact ⟨{ s with h := h' }, true, by simp only [e, Res.bind],
              agrees_withEl g z p C hz hC h' _ (fun i j => A.el j i) fl (fun _ _ _ _ => rfl) _ (if_pos hs), by simp⟩
          · refine ⟨{ s with h := s.h }, true, by simp only [b2 hs, Res.bind], upd_id g z _ (fun C' hC' => ?_), by simp⟩
            rw [hC] at hC'
            cases hC'
            exact if_neg hs
    · rw [if_neg hk, if_neg hk]
      exact ⟨s, true, rfl, g, by simp⟩

/-! ## Histories -/

/-- The values along a history. -/
def mspecRun (tol : K) : List (MOp K) → List Bool → Vals K → Vals K
  | o :: l, b :: bs, a => mspecRun tol l bs (mspec tol b a o)
  | _, _, a => a

/-- The obligations of the client along a history, whether memory is given out or not. -/
def MAllFit (tol : K) : List (MOp K) → Vals K → Prop
  | [], _ => True
  | o :: l, a => MFits a o ∧ ∀ got, MAllFit tol l (mspec tol got a o)

theorem mrun_ok (tol : K) (avail : Nat → Bool) (l : List (MOp K)) : ∀ (s : Cl K) (a : Vals K), Agrees s a → MAllFit tol l a →
    ∃ s' gots, mrun tol avail l s = .ok s' ∧ gots.length = l.length ∧ Agrees s' (mspecRun tol l gots a) ∧ ((∀ n, avail n = true) → ∀ b ∈ gots, b = true) := by
  induction l with
  | nil => intro s a g _; exact ⟨s, [], rfl, rfl, g, by simp⟩
  | cons o l ih =>
    intro s a g hf
    obtain ⟨s1, got, e, g1, hr⟩ := mstep_ok tol avail g o hf.1
    obtain ⟨s2, gots, e2, hl, g2, hr2⟩ := ih s1 _ g1 (hf.2 got)
    refine ⟨s2, got :: gots, by simp only [mrun, e, Res.bind, e2], by simp [hl], g2, ?_⟩
    intro ha b hb
    rcases List.mem_cons.1 hb with rfl | hb
    · cases h : b
      · rcases hr h with h1 | h1 <;> rw [ha] at h1 <;> cases h1
      · rfl
    · exact hr2 ha b hb

/-- C238: whatever a client multiplies and transposes between creating, copying, resizing, releasing and adding vectors and matrices, with any margins and whichever
allocations fail, as long as no destination is one of its operands: no undefined behaviour occurs, and every variable stands for the value which products of values
give; sizes that do not fit change nothing. -/
theorem mul_history (tol : K) (avail : Nat → Bool) (l : List (MOp K)) (t next : Nat) (hdr : Nat → Hdr) (len : Nat → Nat) (d : Nat → Nat → K) (hf : MAllFit tol l []) :
    ∃ s gots, mrun tol avail l ⟨[], ⟨t, next, [], hdr, len, d⟩⟩ = .ok s ∧ gots.length = l.length ∧ Agrees s (mspecRun tol l gots []) ∧
      ((∀ n, avail n = true) → ∀ b ∈ gots, b = true) :=
  mrun_ok tol avail l _ _ (agrees_empty d hdr len t next) hf

/-- C238: a product answers the null pointer exactly when the sizes do not fit. -/
theorem mul_answer {s : Cl K} {a : Vals K} (g : Agrees s a) (f : Prd) {x y z p1 p2 p : Nat} {A B C : Arr K}
    (hx : (s.var x).2 = some p1) (hy : (s.var y).2 = some p2) (hz : (s.var z).2 = some p)
    (hA : (a.var x).2 = some A) (hB : (a.var y).2 = some B) (hC : (a.var z).2 = some C)
    (hk : MulKinds f (s.var x).1 (s.var y).1 (s.var z).1) (n1 : x ≠ z) (n2 : y ≠ z) :
    ∃ h', prd f p1 p2 p s.h = .ok (h', decide (MulFits f A B C)) := by
  rw [kinds_iff] at hk
  obtain ⟨b1, b2⟩ := mul_filled g f hx hy hz hA hB hC hk.2.1 hk.2.2 n1 n2
  by_cases hs : MulFits f A B C
  · obtain ⟨h', e, _⟩ := b1 hs
    exact ⟨h', by rw [e, decide_eq_true hs]⟩
  · exact ⟨s.h, by rw [b2 hs, decide_eq_false hs]⟩

/-- C238: a transposition answers the null pointer exactly when the sizes do not fit. -/
theorem trans_answer {s : Cl K} {a : Vals K} (g : Agrees s a) {x z p1 p : Nat} {A C : Arr K}
    (hx : (s.var x).2 = some p1) (hz : (s.var z).2 = some p) (hA : (a.var x).2 = some A) (hC : (a.var z).2 = some C) (n1 : x ≠ z) :
    ∃ h', zMatT p1 p s.h = .ok (h', decide (C.rows = A.cols ∧ C.cols = A.rows)) := by
  obtain ⟨b1, b2⟩ := trans_filled g hx hz hA hC n1
  by_cases hs : C.rows = A.cols ∧ C.cols = A.rows
  · obtain ⟨h', e, _⟩ := b1 hs
    exact ⟨h', by rw [e, decide_eq_true hs]⟩
  · exact ⟨s.h, by rw [b2 hs, decide_eq_false hs]⟩

/-- C238: the inner product of two vectors, which may be one; zero when the sizes differ. -/
theorem inner_ok {s : Cl K} {a : Vals K} (g : Agrees s a) {x y p1 p2 : Nat} {A B : Arr K} (hx : (s.var x).2 = some p1) (hy : (s.var y).2 = some p2)
    (hA : (a.var x).2 = some A) (hB : (a.var y).2 = some B) (k1 : (s.var x).1 = .vec) (k2 : (s.var y).1 = .vec) :
    zVecInnerProd p1 p2 s.h = .ok (if A.cols = B.cols then ∑ k ∈ Finset.range A.cols, A.el 0 k * B.el 0 k else 0) := by
  have v1 := g.valid x p1 A hx hA
  have v2 := g.valid y p2 B hy hB
  have w1 := g.val x p1 A hx hA
  have w2 := g.val y p2 B hy hB
  have a1 := (w1.vec (Or.inl k1)).1
  have a2 := (w2.vec (Or.inl k2)).1
  have c1 := w1.cols
  have c2 := w2.cols
  have q1 := w1.rows
  have q2 := w2.rows
  simp only [zVecInnerProd, v1.hd, v2.hd, Res.bind, bufOf]
  by_cases hs : A.cols = B.cols
  · rw [if_neg (not_not.mpr hs), if_pos hs]
    refine rawInner_ok _ _ _ _ _ _ (fun k => A.el 0 k) (fun k => B.el 0 k) (fun k hk => ?_) (fun k hk => ?_)
    · have hc := v1.cell 0 k (by omega) hk
      have he := w1.el 0 k (by omega) (by omega)
      rw [Nat.zero_mul] at hc he
      unfold rd
      rw [if_pos ⟨v1.bl, hc⟩, he]
    · have hc := v2.cell 0 k (by omega) (by omega)
      have he := w2.el 0 k (by omega) (by omega)
      rw [Nat.zero_mul] at hc he
      unfold rd
      rw [if_pos ⟨v2.bl, hc⟩, he]
  · rw [if_pos hs, if_neg hs]

/-! ## Not vacuous -/

/-- A matrix with a margin is multiplied by itself, by its transpose from both sides, and with a vector. -/
def exMul : List (MOp ℚ) := [.base (.base (.create .mat 2 3 [1, 2, 9, 3, 4, 9])), .base (.base (.resize 0 2 2)), .base (.base (.alloc .mat 2 2)), .mul .mm 0 0 1,
  .base (.base (.alloc .mat 3 2)), .base (.base (.resize 2 2 2)), .mul .mmt 0 0 2, .base (.base (.alloc .mat 2 2)), .mul .mtm 0 1 3,
  .base (.base (.create .vec 1 2 [5, 7])), .base (.base (.alloc .vec 1 2)), .mul .mv 0 4 5, .base (.base (.alloc .vec 1 2)), .mul .mtv 0 5 6, .mul .mm 0 4 5,
  .base (.base (.alloc .mat 2 2)), .trans 0 7]

def exMulRead (x : Nat) : Res (List ℚ) :=
  (mrun 0 (fun _ => true) exMul ⟨[], ⟨0, 0, [], fun _ => {}, fun _ => 0, fun _ _ => 7⟩⟩).bind fun s =>
  match (s.var x).2 with
  | some p => (zMatElem p 0 0 s.h).bind fun a => (zMatElem p 0 1 s.h).bind fun b => (zMatElem p 1 0 s.h).bind fun c => (zMatElem p 1 1 s.h).bind fun d => .ok [a, b, c, d]
  | none => .fail

example : MAllFit 0 exMul ([] : Vals ℚ) := by
  simp [MAllFit, MFits, AFits, Fits, exMul, rowsOf]

example : exMulRead 1 = .ok [7, 10, 15, 22] ∧ exMulRead 2 = .ok [5, 11, 11, 25] ∧ exMulRead 3 = .ok [52, 76, 74, 108] ∧ exMulRead 7 = .ok [1, 3, 2, 4] := by
  refine ⟨?_, ?_, ?_, ?_⟩ <;> decide +kernel

end Zm.Obj
