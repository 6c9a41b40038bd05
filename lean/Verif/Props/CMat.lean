import Verif.Model.CMat
import Verif.Props.Complex
import Verif.Props.RawVec

/-! # C153–C155: complex matrices -/

set_option linter.unusedSectionVars false

namespace Zm.CMat
open Zm Cplx RawVec

/-! ## Specification -/

/-- The matrix lies in the block. -/
def CM.In (m : CM) (h : Mem ℂ) : Prop := m.buf + m.rows * m.cols ≤ h.size

/-- The vector lies in the block. -/
def CV.In (v : CV) (h : Mem ℂ) : Prop := v.buf + v.size ≤ h.size

/-- Two areas of the block have no cell in common. -/
def Apart (p n q k : Nat) : Prop := p + n ≤ q ∨ q + k ≤ p

/-- A source and the destination, of `n` cells each, begin at the same place or have no cell in common. -/
def Fits (src dst n : Nat) : Prop := src = dst ∨ Apart src n dst n

/-- `h'` is `h` in which the matrix has the elements `f i j`, and nothing else is changed. -/
def Holds (h h' : Mem ℂ) (m : CM) (f : Nat → Nat → ℂ) : Prop :=
  h'.size = h.size ∧ (∀ i < m.rows, ∀ j < m.cols, h'.val (m.buf + (i * m.cols + j)) = f i j) ∧
  ∀ a, a < m.buf ∨ m.buf + m.rows * m.cols ≤ a → h'.val a = h.val a

/-- The element of row `i` and column `j`. -/
def elem (h : Mem ℂ) (m : CM) (i j : Nat) : ℂ := h.val (m.buf + (i * m.cols + j))

/-! ## Loops over cells -/

theorem place_lt {r c i j : Nat} (hi : i < r) (hj : j < c) : i * c + j < r * c := by
  have := Nat.mul_le_mul_right c (Nat.succ_le_of_lt hi)
  rw [Nat.succ_mul] at this
  omega

/-- A loop whose turn `i` writes the cell number `i` of an area. -/
theorem cells_loop (h : Mem ℂ) (p n : Nat) (G : Nat → ℂ) (f : Nat → Mem ℂ → Res (Mem ℂ))
    (step : ∀ i < n, ∀ t : Mem ℂ, t.size = h.size → (∀ a, a < p ∨ p + i ≤ a → t.val a = h.val a) → f i t = .ok ⟨t.size, set1 t.val (p + i) (G i)⟩) :
    ∃ h', forUpM 0 n f h = .ok h' ∧ Wrote h h' p n G := by
  refine forUpM_ok f h (fun i t => Wrote h t p i G) (Nat.zero_le _) ⟨rfl, by intro i hi; omega, fun _ _ => rfl⟩ ?_
  rintro i t - hi ⟨h1, h2, h3⟩
  refine ⟨_, step i hi t h1 h3, h1, ?_, ?_⟩
  · intro k hk
    by_cases e : k = i
    · subst e; exact set1_same _ _ _
    · rw [show (⟨t.size, set1 t.val (p + i) (G i)⟩ : Mem ℂ).val = set1 t.val (p + i) (G i) from rfl, set1_ne _ _ (by omega), h2 k (by omega)]
  · intro a ha
    rw [show (⟨t.size, set1 t.val (p + i) (G i)⟩ : Mem ℂ).val = set1 t.val (p + i) (G i) from rfl, set1_ne _ _ (by omega), h3 a (by omega)]

theorem holds_of_wrote {h h' : Mem ℂ} {m : CM} {G : Nat → ℂ} {f : Nat → Nat → ℂ} (hw : Wrote h h' m.buf (m.rows * m.cols) G)
    (hG : ∀ i < m.rows, ∀ j < m.cols, G (i * m.cols + j) = f i j) : Holds h h' m f :=
  ⟨hw.1, fun i hi j hj => by rw [hw.2.1 _ (place_lt hi hj), hG i hi j hj], hw.2.2⟩

theorem wr_set1 (t : Mem ℂ) {a : Nat} (x : ℂ) (ha : a < t.size) : t.wr a x = .ok ⟨t.size, set1 t.val a x⟩ := by
  rw [Mem.wr_ok t x ha]; rfl

theorem rd_mk {n : Nat} (f : Nat → ℂ) {a : Nat} (ha : a < n) : (⟨n, f⟩ : Mem ℂ).rd a = .ok (f a) := Mem.rd_ok ⟨n, f⟩ ha

theorem wr_mk {n : Nat} (f : Nat → ℂ) {a : Nat} (x : ℂ) (ha : a < n) : (⟨n, f⟩ : Mem ℂ).wr a x = .ok ⟨n, set1 f a x⟩ := wr_set1 ⟨n, f⟩ x ha

theorem bind_mk {α β : Type} (a : α) (f : α → Res β) : (Res.ok a).bind f = f a := rfl

theorem sizeEq_iff (a b : CM) : sizeEq a b = true ↔ a.rows = b.rows ∧ a.cols = b.cols := by
  simp [sizeEq]

/-- A cell of a source that the loop has not written. -/
theorem fits_keep {h t : Mem ℂ} {src dst n i : Nat} (hf : Fits src dst n) (hi : i < n) (ht : ∀ a, a < dst ∨ dst + i ≤ a → t.val a = h.val a) :
    t.val (src + i) = h.val (src + i) := by
  apply ht
  rcases hf with rfl | h1 | h1 <;> omega

theorem cell_ok (t : Mem ℂ) (ps : List Nat) (f : Heap → Heap) (h : ∀ p ∈ ps, p < t.size) : cell t ps f = .ok ⟨t.size, f t.val⟩ := if_pos h

/-! ## C153: element-wise operations -/

/-- The operations with one source that write every element with one assignment. -/
theorem map1 (h : Mem ℂ) (m1 m : CM) (op : ℂ → ℂ) (g : Heap → Nat → Nat → Heap) (hg : ∀ v a b, g v a b = set1 v b (op (v a)))
    (i1 : m1.In h) (im : m.In h) (f1 : Fits m1.buf m.buf (m.rows * m.cols)) (hs : sizeEq m1 m = true) :
    ∃ h', forUpM 0 (m.rows * m.cols) (fun i h => cell h [m1.buf + i, m.buf + i] fun v => g v (m1.buf + i) (m.buf + i)) h = .ok h' ∧
      Holds h h' m fun i j => op (elem h m1 i j) := by
  obtain ⟨e1, e2⟩ := (sizeEq_iff _ _).1 hs
  obtain ⟨h', hl, hw⟩ := cells_loop h m.buf (m.rows * m.cols) (fun i => op (h.val (m1.buf + i)))
    (fun i h => cell h [m1.buf + i, m.buf + i] fun v => g v (m1.buf + i) (m.buf + i)) (fun i hi t ht hk => by
    unfold CM.In at i1 im
    rw [e1, e2] at i1
    rw [cell_ok _ _ _ (by intro p hp; simp only [List.mem_cons, List.not_mem_nil, or_false] at hp; omega), hg, fits_keep f1 hi hk])
  exact ⟨h', hl, holds_of_wrote hw fun i _ j _ => by rw [elem, e2]⟩

/-- The operations with two sources. -/
theorem map2 (h : Mem ℂ) (m1 m2 m : CM) (op : ℂ → ℂ → ℂ) (g : Heap → Nat → Nat → Nat → Heap)
    (hg : ∀ v a b c, g v a b c = set1 v c (op (v a) (v b))) (i1 : m1.In h) (i2 : m2.In h) (im : m.In h)
    (f1 : Fits m1.buf m.buf (m.rows * m.cols)) (f2 : Fits m2.buf m.buf (m.rows * m.cols)) (hs : sizeEq m1 m2 = true) (hs' : sizeEq m1 m = true) :
    ∃ h', forUpM 0 (m.rows * m.cols) (fun i h => cell h [m1.buf + i, m2.buf + i, m.buf + i] fun v => g v (m1.buf + i) (m2.buf + i) (m.buf + i)) h = .ok h' ∧
      Holds h h' m fun i j => op (elem h m1 i j) (elem h m2 i j) := by
  obtain ⟨e1, e2⟩ := (sizeEq_iff _ _).1 hs'
  obtain ⟨e3, e4⟩ := (sizeEq_iff _ _).1 hs
  obtain ⟨h', hl, hw⟩ := cells_loop h m.buf (m.rows * m.cols) (fun i => op (h.val (m1.buf + i)) (h.val (m2.buf + i)))
    (fun i h => cell h [m1.buf + i, m2.buf + i, m.buf + i] fun v => g v (m1.buf + i) (m2.buf + i) (m.buf + i)) (fun i hi t ht hk => by
    unfold CM.In at i1 i2 im
    rw [← e3, ← e4, e1, e2] at i2
    rw [e1, e2] at i1
    rw [cell_ok _ _ _ (by intro p hp; simp only [List.mem_cons, List.not_mem_nil, or_false] at hp; omega), hg, fits_keep f1 hi hk, fits_keep f2 hi hk])
  exact ⟨h', hl, holds_of_wrote hw fun i _ j _ => by rw [elem, elem, ← e4, e2]⟩

section
variable (h : Mem ℂ) (m1 m2 m : CM) (i1 : m1.In h) (i2 : m2.In h) (im : m.In h)
  (f1 : Fits m1.buf m.buf (m.rows * m.cols)) (f2 : Fits m2.buf m.buf (m.rows * m.cols))
include i1 im f1

/-- C153: the sum, also into one of the summands; matrices of different sizes are refused. -/
theorem zCMatAdd_checked (i2 : m2.In h) (f2 : Fits m2.buf m.buf (m.rows * m.cols)) :
    (sizeEq m1 m2 = true ∧ sizeEq m1 m = true → ∃ h', zCMatAdd m1 m2 m h = .ok h' ∧ Holds h h' m fun i j => elem h m1 i j + elem h m2 i j) ∧
    (¬ (sizeEq m1 m2 = true ∧ sizeEq m1 m = true) → zCMatAdd m1 m2 m h = .fail) := by
  constructor
  · rintro ⟨h1, h2⟩
    unfold zCMatAdd
    rw [h1, h2]
    exact map2 h m1 m2 m (· + ·) zComplexAdd zComplexAdd_spec i1 i2 im f1 f2 h1 h2
  · intro hn
    unfold zCMatAdd
    rw [if_pos]
    cases h1 : sizeEq m1 m2 <;> cases h2 : sizeEq m1 m <;> simp_all

/-- C153: the difference. -/
theorem zCMatSub_checked (i2 : m2.In h) (f2 : Fits m2.buf m.buf (m.rows * m.cols)) :
    (sizeEq m1 m2 = true ∧ sizeEq m1 m = true → ∃ h', zCMatSub m1 m2 m h = .ok h' ∧ Holds h h' m fun i j => elem h m1 i j - elem h m2 i j) ∧
    (¬ (sizeEq m1 m2 = true ∧ sizeEq m1 m = true) → zCMatSub m1 m2 m h = .fail) := by
  constructor
  · rintro ⟨h1, h2⟩
    unfold zCMatSub
    rw [h1, h2]
    exact map2 h m1 m2 m (· - ·) zComplexSub zComplexSub_spec i1 i2 im f1 f2 h1 h2
  · intro hn
    unfold zCMatSub
    rw [if_pos]
    cases h1 : sizeEq m1 m2 <;> cases h2 : sizeEq m1 m <;> simp_all

/-- C153: the opposite. -/
theorem zCMatRev_checked :
    (sizeEq m1 m = true → ∃ h', zCMatRev m1 m h = .ok h' ∧ Holds h h' m fun i j => - elem h m1 i j) ∧ (sizeEq m1 m = false → zCMatRev m1 m h = .fail) := by
  constructor
  · intro h1
    unfold zCMatRev
    rw [h1]
    exact map1 h m1 m (fun c => -c) zComplexRev zComplexRev_spec i1 im f1 h1
  · intro h1
    unfold zCMatRev
    rw [h1]; rfl

theorem mulNC (k : ℝ) (hs : sizeEq m1 m = true) :
    ∃ h', zCMatMulNC m1 k m h = .ok h' ∧ Holds h h' m fun i j => elem h m1 i j * k :=
  map1 h m1 m (fun c => c * k) (fun v a b => zComplexMul v a k b) (fun v a b => zComplexMul_spec v a k b) i1 im f1 hs

/-- C153: the product with a real number. -/
theorem zCMatMul_checked (k : ℝ) :
    (sizeEq m1 m = true → ∃ h', zCMatMul m1 k m h = .ok h' ∧ Holds h h' m fun i j => elem h m1 i j * k) ∧ (sizeEq m1 m = false → zCMatMul m1 k m h = .fail) := by
  constructor
  · intro h1
    unfold zCMatMul
    rw [h1]
    exact mulNC h m1 m i1 im f1 k h1
  · intro h1
    unfold zCMatMul
    rw [h1]; rfl

/-- C153: the quotient by a real number, which is refused if the number is tiny. -/
theorem zCMatDiv_checked (tol k : ℝ) (ht : 0 ≤ tol) :
    (sizeEq m1 m = true ∧ tol < |k| → k ≠ 0 ∧ ∃ h', zCMatDiv tol m1 k m h = .ok h' ∧ Holds h h' m fun i j => elem h m1 i j / k) ∧
    (¬ (sizeEq m1 m = true ∧ tol < |k|) → zCMatDiv tol m1 k m h = .fail) := by
  constructor
  · rintro ⟨h1, hk⟩
    have hk0 : k ≠ 0 := by rintro rfl; rw [abs_zero] at hk; exact absurd hk (not_lt.2 ht)
    unfold zCMatDiv
    rw [h1, if_neg (by simp), if_neg (not_le.2 hk)]
    obtain ⟨h', e, hh⟩ := mulNC h m1 m i1 im f1 (1 / k) h1
    refine ⟨hk0, h', e, hh.1, fun i hi j hj => ?_, hh.2.2⟩
    rw [hh.2.1 i hi j hj]
    push_cast
    rw [mul_one_div]
  · intro hn
    unfold zCMatDiv
    cases h1 : sizeEq m1 m with
    | false => rfl
    | true =>
      have : |k| ≤ tol := not_lt.1 fun hc => hn ⟨h1, hc⟩
      rw [if_neg (by simp), if_pos this]

omit f1 in
/-- C153: the copy, from any place. -/
theorem zCMatCopy_checked (f1 : Fits m1.buf m.buf (m.rows * m.cols)) :
    (sizeEq m1 m = true → ∃ h', zCMatCopy m1 m h = .ok h' ∧ Holds h h' m fun i j => elem h m1 i j) ∧ (sizeEq m1 m = false → zCMatCopy m1 m h = .fail) := by
  constructor
  · intro h1
    unfold zCMatCopy zCMatCopyNC
    rw [h1, if_neg (by simp)]
    obtain ⟨e1, e2⟩ := (sizeEq_iff _ _).1 h1
    unfold CM.In at i1 im
    rw [e1, e2] at i1 ⊢
    obtain ⟨h', hl, hw⟩ := cells_loop h m.buf (m.rows * m.cols) (fun i => h.val (m1.buf + i)) (fun i h => (h.rd (m1.buf + i)).bind fun c => h.wr (m.buf + i) c)
      (fun i hi t ht hk => by
        rw [Mem.rd_ok t (by omega)]
        show t.wr _ _ = _
        rw [wr_set1 t _ (by omega), fits_keep f1 hi hk])
    exact ⟨h', hl, holds_of_wrote hw fun i _ j _ => by rw [elem, e2]⟩
  · intro h1
    unfold zCMatCopy
    rw [h1]; rfl

end

/-- C153: the zero matrix. -/
theorem zCMatZero_spec (h : Mem ℂ) (m : CM) (im : m.In h) : ∃ h', zCMatZero m h = .ok h' ∧ Holds h h' m fun _ _ => 0 := by
  unfold CM.In at im
  obtain ⟨h', hl, hw⟩ := cells_loop h m.buf (m.rows * m.cols) (fun _ => 0) (fun i h => h.wr (m.buf + i) 0)
    (fun i hi t ht _ => wr_set1 t _ (by omega))
  exact ⟨h', hl, holds_of_wrote hw fun _ _ _ _ => rfl⟩

/-- C153: the conversion of a real matrix to a complex one of the same size. -/
theorem zMatToCMat_spec_partial (a : Mem ℝ) (rows cols : Nat) (ha : rows * cols ≤ a.size) (cm : CM) (h : Mem ℂ) (im : cm.In h) (hr : rows = cm.rows) (hc : cols = cm.cols) :
    ∃ h', zMatToCMat a rows cols cm h = .ok h' ∧ Holds h h' cm fun i j => (a.val (i * cols + j) : ℂ) := by
  subst hr hc
  unfold CM.In at im
  obtain ⟨h', hl, hw⟩ := cells_loop h cm.buf (cm.rows * cm.cols) (fun i => ⟨a.val i, 0⟩) (fun i h => (a.rd i).bind fun x => h.wr (cm.buf + i) ⟨x, 0⟩)
    (fun i hi t ht _ => by
      rw [Mem.rd_ok a (by omega)]
      exact wr_set1 t _ (by omega))
  exact ⟨h', hl, holds_of_wrote hw fun _ _ _ _ => rfl⟩

/-- C153 is violated by the conversion: the sizes are not compared, and a larger matrix is written beyond the end of the smaller one. -/
theorem zMatToCMat_size_violated : zMatToCMat (Mem.ofList [1, 2, 3, 4]) 2 2 ⟨0, 1, 1⟩ (Mem.ofList [0]) = .ub := by
  unfold zMatToCMat
  rw [forUpM_cons (by norm_num)]
  rw [show ((Mem.ofList [1, 2, 3, 4] : Mem ℝ).rd 0) = .ok 1 from by rw [Mem.rd_ok _ (by decide)]; rfl]
  show (((Mem.ofList [0] : Mem ℂ).wr 0 ⟨1, 0⟩).bind _) = _
  rw [wr_set1 _ _ (by decide)]
  show forUpM 1 _ _ _ = _
  rw [forUpM_cons (by norm_num)]
  rw [show ((Mem.ofList [1, 2, 3, 4] : Mem ℝ).rd 1) = .ok 2 from by rw [Mem.rd_ok _ (by decide)]; rfl]
  rfl

/-- C153: parts that are tiny, or tiny relative to the other part, are replaced with zero in all elements. -/
theorem zCMatTouchup_spec (h : Mem ℂ) (m : CM) (tol : ℝ) (im : m.In h) :
    ∃ h', zCMatTouchup m tol h = .ok h' ∧ Holds h h' m fun i j => zComplexTouchup (elem h m i j) tol := by
  unfold CM.In at im
  unfold zCMatTouchup
  obtain ⟨h', hl, hw⟩ := forUpM_ok (lo := 0) (hi := m.rows) (fun i (h : Mem ℂ) => forUpM 0 m.cols (fun j h =>
    (h.rd (m.buf + (i * m.cols + j))).bind fun c => h.wr (m.buf + (i * m.cols + j)) (zComplexTouchup c tol)) h) h
    (fun i t => Wrote h t m.buf (i * m.cols) fun k => zComplexTouchup (h.val (m.buf + k)) tol) (Nat.zero_le _)
    ⟨rfl, by intro i hi; omega, fun _ _ => rfl⟩ (by
      rintro i t - hi ⟨h1, h2, h3⟩
      have hlt := Nat.mul_le_mul_right m.cols (Nat.succ_le_of_lt hi)
      rw [Nat.succ_mul] at hlt
      obtain ⟨t', hl, hw⟩ := cells_loop t (m.buf + i * m.cols) m.cols (fun k => zComplexTouchup (t.val (m.buf + i * m.cols + k)) tol)
        (fun j h => (h.rd (m.buf + (i * m.cols + j))).bind fun c => h.wr (m.buf + (i * m.cols + j)) (zComplexTouchup c tol))
        (fun j hj u hu hk => by
          beta_reduce
          rw [← Nat.add_assoc, Mem.rd_ok u (by omega), bind_mk, wr_set1 u _ (by omega), hk _ (by omega)])
      refine ⟨t', hl, hw.1.trans h1, ?_, ?_⟩
      · intro k hk
        rw [Nat.succ_mul] at hk
        by_cases e : k < i * m.cols
        · rw [hw.2.2 _ (by omega), h2 k e]
        · have := hw.2.1 (k - i * m.cols) (by omega)
          beta_reduce at this
          rw [show m.buf + i * m.cols + (k - i * m.cols) = m.buf + k from by omega] at this
          rw [this, h3 (m.buf + k) (by omega)]
      · intro a ha
        rw [Nat.succ_mul] at ha
        rw [hw.2.2 a (by omega), h3 a (by omega)])
  exact ⟨h', hl, holds_of_wrote hw fun _ _ _ _ => rfl⟩

/-- The hypotheses of C153 are met by two matrices of two by one, one of them also being the result. -/
example : (⟨0, 2, 1⟩ : CM).In (Mem.ofList [1, 2, 3, 4]) ∧ (⟨2, 2, 1⟩ : CM).In (Mem.ofList [1, 2, 3, 4]) ∧ Fits 0 0 2 ∧ Fits 2 0 2 ∧
    sizeEq ⟨0, 2, 1⟩ ⟨2, 2, 1⟩ = true ∧ sizeEq ⟨0, 2, 1⟩ ⟨0, 2, 1⟩ = true :=
  ⟨by unfold CM.In; decide, by unfold CM.In; decide, Or.inl rfl, Or.inr (Or.inr (by decide)), rfl, rfl⟩

/-! ## C154: products and quotients with complex numbers -/

/-- C154, the part that holds: the product with a complex number, if the result is in another place than the source and the number. -/
theorem zCMatCMul_checked_partial (h : Mem ℂ) (m1 m : CM) (z : Nat) (i1 : m1.In h) (im : m.In h) (iz : z < h.size)
    (f1 : Apart m1.buf (m.rows * m.cols) m.buf (m.rows * m.cols)) (fz : z < m.buf ∨ m.buf + m.rows * m.cols ≤ z) :
    (sizeEq m1 m = true → ∃ h', zCMatCMul m1 z m h = .ok h' ∧ Holds h h' m fun i j => elem h m1 i j * h.val z) ∧
    (sizeEq m1 m = false → zCMatCMul m1 z m h = .fail) := by
  constructor
  · intro h1
    unfold zCMatCMul zCMatCMulNC
    rw [h1, if_neg (by simp)]
    obtain ⟨e1, e2⟩ := (sizeEq_iff _ _).1 h1
    unfold CM.In at i1 im
    rw [e1, e2] at i1
    obtain ⟨h', hl, hw⟩ := cells_loop h m.buf (m.rows * m.cols) (fun i => h.val (m1.buf + i) * h.val z)
      (fun i h => cell h [m1.buf + i, z, m.buf + i] fun v => zComplexCMul v (m1.buf + i) z (m.buf + i)) (fun i hi t ht hk => by
      rw [cell_ok _ _ _ (by intro p hp; simp only [List.mem_cons, List.not_mem_nil, or_false] at hp; omega),
        (zComplexCMul_spec_partial t.val (m1.buf + i) z (m.buf + i) (by rcases f1 with f1 | f1 <;> omega) (by rcases fz with fz | fz <;> omega)).1,
        fits_keep (Or.inr f1) hi hk, hk z (by rcases fz with fz | fz <;> omega)])
    exact ⟨h', hl, holds_of_wrote hw fun i _ j _ => by rw [elem, e2]⟩
  · intro h1
    unfold zCMatCMul
    rw [h1]; rfl

/-- What the product with a complex number in place (`zCMatCMulNCDRC`) leaves: the imaginary part is computed from the new real part. -/
theorem zCMatCMul_inplace (h : Mem ℂ) (m : CM) (z : Nat) (im : m.In h) (iz : z < h.size) (fz : z < m.buf ∨ m.buf + m.rows * m.cols ≤ z) :
    ∃ h', zCMatCMul m z m h = .ok h' ∧ Holds h h' m fun i j =>
      ⟨(elem h m i j * h.val z).re, (elem h m i j * h.val z).re * (h.val z).im + (elem h m i j).im * (h.val z).re⟩ := by
  unfold zCMatCMul zCMatCMulNC
  rw [(sizeEq_iff m m).2 ⟨rfl, rfl⟩, if_neg (by simp)]
  unfold CM.In at im
  obtain ⟨h', hl, hw⟩ := cells_loop h m.buf (m.rows * m.cols)
      (fun i => ⟨(h.val (m.buf + i) * h.val z).re, (h.val (m.buf + i) * h.val z).re * (h.val z).im + (h.val (m.buf + i)).im * (h.val z).re⟩)
      (fun i h => cell h [m.buf + i, z, m.buf + i] fun v => zComplexCMul v (m.buf + i) z (m.buf + i))
      (fun i hi t ht hk => by
    rw [cell_ok _ _ _ (by intro p hp; simp only [List.mem_cons, List.not_mem_nil, or_false] at hp; omega)]
    unfold zComplexCMul
    rw [create_eq, set1_same, set1_ne _ _ (by rcases fz with fz | fz <;> omega), hk (m.buf + i) (by omega), hk z (by rcases fz with fz | fz <;> omega)]
    rfl)
  exact ⟨h', hl, holds_of_wrote hw fun i _ j _ => rfl⟩

/-- C154 is violated by the product in place: every element whose product has a different real part, where the number is not real, becomes wrong. -/
theorem zCMatCMul_inplace_violated (h : Mem ℂ) (m : CM) (z : Nat) (im : m.In h) (iz : z < h.size) (fz : z < m.buf ∨ m.buf + m.rows * m.cols ≤ z)
    (hz : (h.val z).im ≠ 0) (i j : Nat) (hi : i < m.rows) (hj : j < m.cols) (hd : (elem h m i j * h.val z).re ≠ (elem h m i j).re) :
    ∃ h', zCMatCMul m z m h = .ok h' ∧ elem h' m i j ≠ elem h m i j * h.val z := by
  obtain ⟨h', e, hh⟩ := zCMatCMul_inplace h m z im iz fz
  refine ⟨h', e, fun hc => ?_⟩
  rw [elem, hh.2.1 i hi j hj] at hc
  have := congrArg Complex.im hc
  simp only [Complex.mul_im] at this
  exact hd (mul_right_cancel₀ hz (add_right_cancel this))

example : ∃ h', zCMatCMul ⟨0, 1, 1⟩ 1 ⟨0, 1, 1⟩ (Mem.ofList [Complex.I, Complex.I]) = .ok h' ∧
    elem h' ⟨0, 1, 1⟩ 0 0 ≠ elem (Mem.ofList [Complex.I, Complex.I]) ⟨0, 1, 1⟩ 0 0 * (Mem.ofList [Complex.I, Complex.I]).val 1 :=
  zCMatCMul_inplace_violated (Mem.ofList [Complex.I, Complex.I]) ⟨0, 1, 1⟩ 1 (by unfold CM.In; decide) (by decide) (by right; decide)
    (by show Complex.I.im ≠ 0; simp) 0 0 (by decide) (by decide) (by show (Complex.I * Complex.I).re ≠ Complex.I.re; simp)

theorem recip_spec (tol : ℝ) (z : ℂ) : recip tol z = if Complex.normSq z ≤ tol then starRingEnd ℂ z else z⁻¹ := by
  unfold recip
  dsimp only
  rw [sqrAbs_eq, abs_of_nonneg (Complex.normSq_nonneg z)]
  by_cases h : Complex.normSq z ≤ tol
  · rw [if_pos h, if_pos h]; rfl
  · rw [if_neg h, if_neg h]
    apply Complex.ext <;> simp [Complex.inv_re, Complex.inv_im] <;> ring

/-- What the quotient by a complex number leaves, if the result is in another place than the source. -/
theorem cdiv_run (tol : ℝ) (h : Mem ℂ) (m1 m : CM) (z : Nat) (i1 : m1.In h) (im : m.In h) (iz : z < h.size)
    (f1 : Apart m1.buf (m.rows * m.cols) m.buf (m.rows * m.cols)) (hs : sizeEq m1 m = true) (hz : ¬ (|(h.val z).re| ≤ tol ∧ |(h.val z).im| ≤ tol)) :
    ∃ h', zCMatCDiv tol m1 z m h = .ok h' ∧ Holds h h' m fun i j => elem h m1 i j * recip tol (h.val z) := by
  unfold zCMatCDiv
  rw [hs, if_neg (by simp), Mem.rd_ok h iz]
  dsimp only [Res.bind]
  rw [if_neg hz]
  obtain ⟨e1, e2⟩ := (sizeEq_iff _ _).1 hs
  unfold CM.In at i1 im
  rw [e1, e2] at i1
  obtain ⟨h', hl, hw⟩ := cells_loop h m.buf (m.rows * m.cols) (fun i => h.val (m1.buf + i) * recip tol (h.val z))
      (fun i h' => cell h' [m1.buf + i, m.buf + i] fun v =>
      create v (m.buf + i) (fun v => (v (m1.buf + i)).re * (recip tol (h.val z)).re - (v (m1.buf + i)).im * (recip tol (h.val z)).im)
        (fun v => (v (m1.buf + i)).re * (recip tol (h.val z)).im + (v (m1.buf + i)).im * (recip tol (h.val z)).re)) (fun i hi t ht hk => by
    have hne : m1.buf + i ≠ m.buf + i := by rcases f1 with f1 | f1 <;> omega
    rw [cell_ok _ _ _ (by intro p hp; simp only [List.mem_cons, List.not_mem_nil, or_false] at hp; omega), create_eq, set1_ne _ _ hne,
      fits_keep (Or.inr f1) hi hk]
    congr 3)
  exact ⟨h', hl, holds_of_wrote hw fun i _ j _ => by rw [elem, e2]⟩

/-- C154, the part that holds: the quotient by a complex number whose squared absolute value is above the tolerance. -/
theorem zCMatCDiv_checked_partial (tol : ℝ) (ht : 0 ≤ tol) (ht1 : tol ≤ 1/2) (h : Mem ℂ) (m1 m : CM) (z : Nat) (i1 : m1.In h) (im : m.In h) (iz : z < h.size)
    (f1 : Apart m1.buf (m.rows * m.cols) m.buf (m.rows * m.cols)) :
    (sizeEq m1 m = true → tol < Complex.normSq (h.val z) → ∃ h', zCMatCDiv tol m1 z m h = .ok h' ∧ Holds h h' m fun i j => elem h m1 i j / h.val z) ∧
    (sizeEq m1 m = false → zCMatCDiv tol m1 z m h = .fail) ∧
    (|(h.val z).re| ≤ tol ∧ |(h.val z).im| ≤ tol → zCMatCDiv tol m1 z m h = .fail) := by
  refine ⟨fun hs hz => ?_, fun hs => by unfold zCMatCDiv; rw [hs]; rfl, fun hz => ?_⟩
  · have h1 : ¬ (|(h.val z).re| ≤ tol ∧ |(h.val z).im| ≤ tol) := by
      intro h1
      rw [Complex.normSq_apply, ← abs_mul_abs_self (h.val z).re, ← abs_mul_abs_self (h.val z).im] at hz
      nlinarith [abs_nonneg (h.val z).re, abs_nonneg (h.val z).im, mul_le_mul h1.1 h1.1 (abs_nonneg _) ht, mul_le_mul h1.2 h1.2 (abs_nonneg _) ht]
    obtain ⟨h', e, hh⟩ := cdiv_run tol h m1 m z i1 im iz f1 hs h1
    refine ⟨h', e, hh.1, fun i hi j hj => ?_, hh.2.2⟩
    rw [hh.2.1 i hi j hj, recip_spec, if_neg (not_le.2 hz)]
    exact (div_eq_mul_inv _ _).symm
  · unfold zCMatCDiv
    by_cases hs : sizeEq m1 m = true
    · rw [hs, if_neg (by simp), Mem.rd_ok h iz]
      exact if_pos hz
    · rw [if_pos (by simpa using hs)]

/-- C154 is violated by the division: a number that is not refused, but the square of whose absolute value is within the tolerance, is not divided by; the
elements are multiplied by its conjugate. -/
theorem zCMatCDiv_small_violated (tol : ℝ) (h : Mem ℂ) (m1 m : CM) (z : Nat) (i1 : m1.In h) (im : m.In h) (iz : z < h.size)
    (f1 : Apart m1.buf (m.rows * m.cols) m.buf (m.rows * m.cols)) (hs : sizeEq m1 m = true) (hz : ¬ (|(h.val z).re| ≤ tol ∧ |(h.val z).im| ≤ tol))
    (hq : Complex.normSq (h.val z) ≤ tol) :
    ∃ h', zCMatCDiv tol m1 z m h = .ok h' ∧ Holds h h' m fun i j => elem h m1 i j * starRingEnd ℂ (h.val z) := by
  have := cdiv_run tol h m1 m z i1 im iz f1 hs hz
  rwa [recip_spec, if_pos hq] at this

/-- The hypotheses are met by the number `10⁻⁷` and the tolerance of the library. -/
example : ¬ (|(1/10000000 : ℝ)| ≤ 1/1000000000000 ∧ |(0 : ℝ)| ≤ 1/1000000000000) ∧ Complex.normSq ⟨1/10000000, 0⟩ ≤ 1/1000000000000 := by
  constructor
  · norm_num [abs_of_pos]
  · norm_num [Complex.normSq_apply]

/-! ## C155: rows, columns and the product with a vector -/

theorem memcpy_spec (dst src n : Nat) (h : Mem ℂ) (hd : dst + n ≤ h.size) (hs : src + n ≤ h.size) (ha : Apart dst n src n) :
    ∃ h', memcpy dst src n h = .ok h' ∧ Wrote h h' dst n fun i => h.val (src + i) := by
  unfold memcpy
  rw [if_pos (by rcases ha with ha | ha <;> omega)]
  refine ⟨_, rfl, rfl, ?_, ?_⟩
  · intro i hi
    show (if _ then _ else _) = _
    rw [if_pos (by omega)]
    congr 1
    omega
  · intro a ha
    exact if_neg (by omega)

section
variable (h : Mem ℂ) (m : CM) (v : CV) (im : m.In h) (iv : v.In h) (ap : Apart m.buf (m.rows * m.cols) v.buf v.size)
include im iv ap

/-- C155, the part that holds: a row is taken out for an index that is not negative, and refused if there is no such row or the sizes differ. -/
theorem zCMatGetRow_checked_partial (row : Nat) :
    (m.cols = v.size ∧ row < m.rows → ∃ h', zCMatGetRow m row v h = .ok h' ∧ Wrote h h' v.buf v.size fun j => elem h m row j) ∧
    (¬ (m.cols = v.size ∧ row < m.rows) → zCMatGetRow m row v h = .fail) := by
  unfold zCMatGetRow
  constructor
  · rintro ⟨h1, h2⟩
    rw [if_neg (not_not.2 h1), if_neg (by omega)]
    unfold CM.In CV.In at *
    have hl := Nat.mul_le_mul_right m.cols (Nat.succ_le_of_lt h2)
    rw [Nat.succ_mul] at hl
    obtain ⟨h', e, hw⟩ := memcpy_spec v.buf (m.buf + row * m.cols) m.cols h (by omega) (by omega) (by rcases ap with ap | ap <;> [right; left] <;> omega)
    refine ⟨h', by push_cast at e; exact e, hw.1, fun i hi => ?_, fun a ha => hw.2.2 a (by omega)⟩
    rw [hw.2.1 i (by omega)]
    show h.val _ = h.val _
    rw [Nat.add_assoc]
  · intro hn
    by_cases h1 : m.cols = v.size
    · have h2 : ¬ row < m.rows := fun h2 => hn ⟨h1, h2⟩
      rw [if_neg (not_not.2 h1), if_pos (by omega)]
    · rw [if_pos h1]

/-- C155, the part that holds: a row is put in. -/
theorem zCMatPutRow_checked_partial (row : Nat) :
    (m.cols = v.size ∧ row < m.rows → ∃ h', zCMatPutRow m row v h = .ok h' ∧
      Holds h h' m fun i j => if i = row then h.val (v.buf + j) else elem h m i j) ∧
    (¬ (m.cols = v.size ∧ row < m.rows) → zCMatPutRow m row v h = .fail) := by
  unfold zCMatPutRow
  constructor
  · rintro ⟨h1, h2⟩
    rw [if_neg (not_not.2 h1), if_neg (by omega)]
    unfold CM.In CV.In at *
    have hl := Nat.mul_le_mul_right m.cols (Nat.succ_le_of_lt h2)
    rw [Nat.succ_mul] at hl
    obtain ⟨h', e, hw⟩ := memcpy_spec (m.buf + row * m.cols) v.buf v.size h (by omega) (by omega) (by rcases ap with ap | ap <;> [left; right] <;> omega)
    refine ⟨h', by push_cast at e; exact e, hw.1, fun i hi j hj => ?_, fun a ha => hw.2.2 a (by omega)⟩
    beta_reduce
    by_cases hir : i = row
    · subst hir
      rw [if_pos rfl, ← Nat.add_assoc, hw.2.1 j (by omega)]
    · rw [if_neg hir, elem, hw.2.2]
      rcases Nat.lt_or_gt_of_ne hir with hlt | hgt
      · have := Nat.mul_le_mul_right m.cols (Nat.succ_le_of_lt hlt)
        rw [Nat.succ_mul] at this
        omega
      · have := Nat.mul_le_mul_right m.cols (Nat.succ_le_of_lt hgt)
        rw [Nat.succ_mul] at this
        omega
  · intro hn
    by_cases h1 : m.cols = v.size
    · have h2 : ¬ row < m.rows := fun h2 => hn ⟨h1, h2⟩
      rw [if_neg (not_not.2 h1), if_pos (by omega)]
    · rw [if_pos h1]

/-- C155, the part that holds: a column is taken out. -/
theorem zCMatGetCol_checked_partial (col : Nat) :
    (m.rows = v.size ∧ col < m.cols → ∃ h', zCMatGetCol m col v h = .ok h' ∧ Wrote h h' v.buf v.size fun i => elem h m i col) ∧
    (¬ (m.rows = v.size ∧ col < m.cols) → zCMatGetCol m col v h = .fail) := by
  unfold zCMatGetCol
  constructor
  · rintro ⟨h1, h2⟩
    rw [if_neg (not_not.2 h1), if_neg (by omega)]
    unfold CM.In CV.In at *
    rw [h1]
    refine cells_loop h v.buf v.size _ _ fun i hi t ht hk => ?_
    have hp := place_lt (r := m.rows) (h1 ▸ hi) h2
    have e : t.rdI (m.buf + ((i * m.cols : Nat) + (col : Int))) = .ok (elem h m i col) := by
      unfold Mem.rdI
      rw [if_pos (by omega), show ((m.buf : Int) + ((i * m.cols : Nat) + (col : Int))).toNat = m.buf + (i * m.cols + col) from by omega,
        hk _ (by rcases ap with ap | ap <;> omega)]
      rfl
    rw [e]
    exact wr_set1 t _ (by omega)
  · intro hn
    by_cases h1 : m.rows = v.size
    · have h2 : ¬ col < m.cols := fun h2 => hn ⟨h1, h2⟩
      rw [if_neg (not_not.2 h1), if_pos (by omega)]
    · rw [if_pos h1]

/-- C155, the part that holds: a column is put in. -/
theorem zCMatPutCol_checked_partial (col : Nat) :
    (m.rows = v.size ∧ col < m.cols → ∃ h', zCMatPutCol m col v h = .ok h' ∧
      Holds h h' m fun i j => if j = col then h.val (v.buf + i) else elem h m i j) ∧
    (¬ (m.rows = v.size ∧ col < m.cols) → zCMatPutCol m col v h = .fail) := by
  unfold zCMatPutCol
  constructor
  · rintro ⟨h1, h2⟩
    rw [if_neg (not_not.2 h1), if_neg (by omega)]
    unfold CM.In CV.In at *
    obtain ⟨h', hl, hs, hv, hf⟩ := forUpM_ok (lo := 0) (hi := v.size) (fun i h => (h.rd (v.buf + i)).bind fun c => h.wrI (m.buf + ((i * m.cols : Nat) + (col : Int))) c) h
      (fun k t => t.size = h.size ∧ (∀ i < k, t.val (m.buf + (i * m.cols + col)) = h.val (v.buf + i)) ∧
        ∀ a, (∀ i < k, a ≠ m.buf + (i * m.cols + col)) → t.val a = h.val a) (Nat.zero_le _)
      ⟨rfl, by intro i hi; omega, fun _ _ => rfl⟩ (by
        rintro k t - hk ⟨h3, h4, h5⟩
        have hp := place_lt (r := m.rows) (h1 ▸ hk) h2
        have hrd : t.val (v.buf + k) = h.val (v.buf + k) := h5 _ fun i hi he => by
          have := place_lt (r := m.rows) (i := i) (by omega) h2
          rcases ap with ap | ap <;> omega
        refine ⟨⟨t.size, set1 t.val (m.buf + (k * m.cols + col)) (h.val (v.buf + k))⟩, ?_, h3, ?_, ?_⟩
        · rw [Mem.rd_ok t (by omega), hrd]
          show t.wrI _ _ = _
          unfold Mem.wrI
          rw [if_pos (by omega)]
          congr 2
          funext a
          unfold set1
          by_cases ea : a = m.buf + (k * m.cols + col)
          · rw [if_pos ea, if_pos (by omega)]
          · rw [if_neg ea, if_neg (by omega)]
        · intro i hi
          show set1 _ _ _ _ = _
          by_cases e : i = k
          · subst e; exact set1_same _ _ _
          · have hlt : i < k := by omega
            have := Nat.mul_le_mul_right m.cols (Nat.succ_le_of_lt hlt)
            rw [Nat.succ_mul] at this
            rw [set1_ne _ _ (by omega), h4 i hlt]
        · intro a ha
          show set1 _ _ _ _ = _
          rw [set1_ne _ _ (ha k (by omega)), h5 a fun i hi => ha i (by omega)])
    refine ⟨h', hl, hs, fun i hi j hj => ?_, fun a ha => hf a fun i hi => ?_⟩
    · beta_reduce
      by_cases hjc : j = col
      · subst hjc
        rw [if_pos rfl, hv i (by omega)]
      · rw [if_neg hjc, elem]
        refine hf _ fun k hk he => hjc ?_
        have he : i * m.cols + j = k * m.cols + col := by omega
        rcases Nat.lt_trichotomy i k with hlt | rfl | hgt
        · have := Nat.mul_le_mul_right m.cols (Nat.succ_le_of_lt hlt)
          rw [Nat.succ_mul] at this
          omega
        · omega
        · have := Nat.mul_le_mul_right m.cols (Nat.succ_le_of_lt hgt)
          rw [Nat.succ_mul] at this
          omega
    · have := place_lt (r := m.rows) (i := i) (by omega) h2
      omega
  · intro hn
    by_cases h1 : m.rows = v.size
    · have h2 : ¬ col < m.cols := fun h2 => hn ⟨h1, h2⟩
      rw [if_neg (not_not.2 h1), if_pos (by omega)]
    · rw [if_pos h1]

end

/-- C155 is violated for a negative index: a row above the first is not refused but read before the beginning of the matrix. -/
theorem zCMatGetRow_negative_violated (h : Mem ℂ) (m : CM) (v : CV) (hb : m.buf = 0) (hs : m.cols = v.size) (hc : 0 < m.cols) (row : Int) (hr : row < 0) :
    zCMatGetRow m row v h = .ub := by
  unfold zCMatGetRow
  rw [if_neg (not_not.2 hs), if_neg (by omega)]
  unfold memcpy
  refine if_neg fun hn => ?_
  have : row * (m.cols : Int) < 0 := mul_neg_of_neg_of_pos hr (by omega)
  omega

/-- C155: the product of a matrix and a vector, with the result in a place of its own. -/
theorem zCMulMatVec_checked_partial (h : Mem ℂ) (m : CM) (v1 v : CV) (im : m.In h) (i1 : v1.In h) (iv : v.In h)
    (am : Apart m.buf (m.rows * m.cols) v.buf v.size) (a1 : Apart v1.buf v1.size v.buf v.size) :
    (m.cols = v1.size ∧ m.rows = v.size → ∃ h', zCMulMatVec m v1 v h = .ok h' ∧
      Wrote h h' v.buf v.size fun i => ∑ j ∈ Finset.range m.cols, elem h m i j * h.val (v1.buf + j)) ∧
    (¬ (m.cols = v1.size ∧ m.rows = v.size) → zCMulMatVec m v1 v h = .fail) := by
  constructor
  · rintro ⟨h1, h2⟩
    unfold zCMulMatVec
    rw [if_neg (by tauto)]
    unfold CM.In CV.In at *
    rw [h2] at im am ⊢
    refine cells_loop h v.buf v.size _ _ fun i hi t ht hk => ?_
    rw [wr_set1 t _ (by omega), bind_mk]
    obtain ⟨t', hl, h3⟩ := forUpM_ok (lo := 0) (hi := m.cols) (fun j (h : Mem ℂ) =>
      (h.rd (m.buf + i * m.cols + j)).bind fun a =>
      (h.rd (v1.buf + j)).bind fun b =>
      (h.rd (v.buf + i)).bind fun s =>
      let z : ℂ := ⟨a.re * b.re - a.im * b.im, a.re * b.im + a.im * b.re⟩
      h.wr (v.buf + i) ⟨s.re + z.re, s.im + z.im⟩) ⟨t.size, set1 t.val (v.buf + i) 0⟩
      (fun k u => u = ⟨t.size, set1 t.val (v.buf + i) (∑ j ∈ Finset.range k, elem h m i j * h.val (v1.buf + j))⟩) (Nat.zero_le _)
      (by simp) (by
        rintro k u - hk' rfl
        have hp := place_lt (r := v.size) hi hk'
        rw [rd_mk _ (show m.buf + i * m.cols + k < t.size by omega), bind_mk, rd_mk _ (show v1.buf + k < t.size by omega), bind_mk,
          rd_mk _ (show v.buf + i < t.size by omega), bind_mk]
        dsimp only
        rw [wr_mk _ _ (show v.buf + i < t.size by omega)]
        refine ⟨_, rfl, ?_⟩
        rw [set1_same, set1_ne _ _ (by rcases am with am | am <;> omega), set1_ne _ _ (by rcases a1 with a1 | a1 <;> omega),
          hk (m.buf + i * m.cols + k) (by rcases am with am | am <;> omega), hk (v1.buf + k) (by rcases a1 with a1 | a1 <;> omega)]
        congr 1
        funext a
        by_cases e : a = v.buf + i
        · subst e
          rw [set1_same, set1_same, Finset.sum_range_succ, elem, ← Nat.add_assoc]
          apply Complex.ext <;> simp
        · rw [set1_ne _ _ e, set1_ne _ _ e, set1_ne _ _ e])
    rw [hl, h3]
  · intro hn
    unfold zCMulMatVec
    rw [if_pos (by tauto)]

/-- The hypotheses are met. -/
example : (⟨0, 2, 2⟩ : CM).In (Mem.ofList [1, 2, 3, 4, 5, 6, 7, 8]) ∧ (⟨4, 2⟩ : CV).In (Mem.ofList [1, 2, 3, 4, 5, 6, 7, 8]) ∧
    (⟨6, 2⟩ : CV).In (Mem.ofList [1, 2, 3, 4, 5, 6, 7, 8]) ∧ Apart 0 4 6 2 ∧ Apart 4 2 6 2 := by
  refine ⟨by unfold CM.In; decide, by unfold CV.In; decide, by unfold CV.In; decide, Or.inl (by decide), Or.inl (by decide)⟩

/-- C155 is violated by the product that is put into the vector itself: each element is cleared before it is used. -/
theorem zCMulMatVec_inplace_violated (h : Mem ℂ) (m : CM) (v : CV) (im : m.In h) (iv : v.In h) (am : Apart m.buf (m.rows * m.cols) v.buf v.size)
    (hr : m.rows = 1) (hc : m.cols = 1) (hv : v.size = 1) :
    ∃ h', zCMulMatVec m v v h = .ok h' ∧ h'.val v.buf = 0 := by
  unfold CM.In CV.In at *
  rw [hr, hc] at im am
  rw [hv] at iv am
  unfold zCMulMatVec
  rw [if_neg (by omega), hr, hc, forUpM_cons (by norm_num), wr_set1 h _ (by omega), bind_mk, forUpM_cons (by norm_num),
    rd_mk _ (by omega), bind_mk, rd_mk _ (by omega), bind_mk, bind_mk]
  dsimp only
  rw [wr_mk _ _ (by omega), bind_mk, forUpM_nil (by norm_num), bind_mk, forUpM_nil (by norm_num)]
  refine ⟨_, rfl, ?_⟩
  show set1 _ _ _ _ = _
  rw [show v.buf + 0 = v.buf from rfl, set1_same, set1_same]
  apply Complex.ext <;> simp

end Zm.CMat
