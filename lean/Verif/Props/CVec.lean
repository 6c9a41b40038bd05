import Verif.Model.CVec
import Verif.Props.CMat

/-! # C184, C185: complex vectors -/

set_option linter.unusedSectionVars false

namespace Zm.CVec
open Zm Cplx CMat RawVec

/-! ## Specification -/

/-- The element number `i` of a vector. -/
def el (h : Mem ℂ) (v : CV) (i : Nat) : ℂ := h.val (v.buf + i)

/-- `h'` is `h` in which the vector has the elements `f i`, and nothing else is changed. -/
def Becomes (h h' : Mem ℂ) (v : CV) (f : Nat → ℂ) : Prop :=
  h'.size = h.size ∧ (∀ i < v.size, el h' v i = f i) ∧ ∀ a, a < v.buf ∨ v.buf + v.size ≤ a → h'.val a = h.val a

/-- A source vector and the destination begin at the same place or have no cell in common. -/
def Compat (s v : CV) : Prop := s.buf = v.buf ∨ Apart s.buf v.size v.buf v.size

/-! ## C184: element-wise operations -/

theorem map1 (h : Mem ℂ) (v1 v : CV) (op : ℂ → ℂ) (g : Heap → Nat → Nat → Heap) (hg : ∀ m a b, g m a b = set1 m b (op (m a)))
    (i1 : v1.In h) (iv : v.In h) (f1 : Compat v1 v) (hs : v.size ≤ v1.size) :
    ∃ h', forUpM 0 v.size (fun i h => cell h [v1.buf + i, v.buf + i] fun m => g m (v1.buf + i) (v.buf + i)) h = .ok h' ∧
      Becomes h h' v fun i => op (el h v1 i) := by
  unfold CV.In at i1 iv
  obtain ⟨h', hl, hw⟩ := cells_loop h v.buf v.size (fun i => op (h.val (v1.buf + i)))
    (fun i h => cell h [v1.buf + i, v.buf + i] fun m => g m (v1.buf + i) (v.buf + i)) (fun i hi t ht hk => by
    rw [cell_ok _ _ _ (by intro p hp; simp only [List.mem_cons, List.not_mem_nil, or_false] at hp; omega), hg, fits_keep f1 hi hk])
  exact ⟨h', hl, hw⟩

theorem map2 (h : Mem ℂ) (v1 v2 v : CV) (op : ℂ → ℂ → ℂ) (g : Heap → Nat → Nat → Nat → Heap)
    (hg : ∀ m a b c, g m a b c = set1 m c (op (m a) (m b))) (i1 : v1.In h) (i2 : v2.In h) (iv : v.In h) (f1 : Compat v1 v) (f2 : Compat v2 v)
    (hs : v1.size = v.size) (hs2 : v2.size = v.size) :
    ∃ h', forUpM 0 v.size (fun i h => cell h [v1.buf + i, v2.buf + i, v.buf + i] fun m => g m (v1.buf + i) (v2.buf + i) (v.buf + i)) h = .ok h' ∧
      Becomes h h' v fun i => op (el h v1 i) (el h v2 i) := by
  unfold CV.In at i1 i2 iv
  obtain ⟨h', hl, hw⟩ := cells_loop h v.buf v.size (fun i => op (h.val (v1.buf + i)) (h.val (v2.buf + i)))
    (fun i h => cell h [v1.buf + i, v2.buf + i, v.buf + i] fun m => g m (v1.buf + i) (v2.buf + i) (v.buf + i)) (fun i hi t ht hk => by
    rw [cell_ok _ _ _ (by intro p hp; simp only [List.mem_cons, List.not_mem_nil, or_false] at hp; omega), hg, fits_keep f1 hi hk, fits_keep f2 hi hk])
  exact ⟨h', hl, hw⟩

section
variable (h : Mem ℂ) (v1 v2 v : CV) (i1 : v1.In h) (iv : v.In h) (f1 : Compat v1 v)
include i1 iv f1

/-- C184: the sum, also into one of the summands; vectors of different sizes are refused. -/
theorem zCVecAdd_checked (i2 : v2.In h) (f2 : Compat v2 v) :
    (v1.size = v2.size ∧ v1.size = v.size → ∃ h', zCVecAdd v1 v2 v h = .ok h' ∧ Becomes h h' v fun i => el h v1 i + el h v2 i) ∧
    (¬ (v1.size = v2.size ∧ v1.size = v.size) → zCVecAdd v1 v2 v h = .fail) := by
  unfold zCVecAdd
  refine ⟨fun hs => ?_, fun hn => if_pos (by omega)⟩
  rw [if_neg (by omega)]
  exact map2 h v1 v2 v (· + ·) zComplexAdd zComplexAdd_spec i1 i2 iv f1 f2 hs.2 (by omega)

/-- C184: the difference. -/
theorem zCVecSub_checked (i2 : v2.In h) (f2 : Compat v2 v) :
    (v1.size = v2.size ∧ v1.size = v.size → ∃ h', zCVecSub v1 v2 v h = .ok h' ∧ Becomes h h' v fun i => el h v1 i - el h v2 i) ∧
    (¬ (v1.size = v2.size ∧ v1.size = v.size) → zCVecSub v1 v2 v h = .fail) := by
  unfold zCVecSub
  refine ⟨fun hs => ?_, fun hn => if_pos (by omega)⟩
  rw [if_neg (by omega)]
  exact map2 h v1 v2 v (· - ·) zComplexSub zComplexSub_spec i1 i2 iv f1 f2 hs.2 (by omega)

/-- C184: the opposite. -/
theorem zCVecRev_checked :
    (v1.size = v.size → ∃ h', zCVecRev v1 v h = .ok h' ∧ Becomes h h' v fun i => - el h v1 i) ∧ (v1.size ≠ v.size → zCVecRev v1 v h = .fail) := by
  unfold zCVecRev
  refine ⟨fun hs => ?_, fun hn => if_pos hn⟩
  rw [if_neg (by omega)]
  exact map1 h v1 v (fun c => -c) zComplexRev zComplexRev_spec i1 iv f1 (by omega)

theorem mulNC (k : ℝ) (hs : v.size ≤ v1.size) : ∃ h', zCVecMulNC v1 k v h = .ok h' ∧ Becomes h h' v fun i => el h v1 i * k :=
  map1 h v1 v (fun c => c * k) (fun m a b => zComplexMul m a k b) (fun m a b => zComplexMul_spec m a k b) i1 iv f1 hs

/-- C184: the product with a real number. -/
theorem zCVecMul_checked (k : ℝ) :
    (v1.size = v.size → ∃ h', zCVecMul v1 k v h = .ok h' ∧ Becomes h h' v fun i => el h v1 i * k) ∧ (v1.size ≠ v.size → zCVecMul v1 k v h = .fail) := by
  unfold zCVecMul
  refine ⟨fun hs => ?_, fun hn => if_pos hn⟩
  rw [if_neg (by omega)]
  exact mulNC h v1 v i1 iv f1 k (by omega)

/-- C184: the quotient by a real number, which is refused if the number is tiny. -/
theorem zCVecDiv_checked (tol k : ℝ) (ht : 0 ≤ tol) :
    (v1.size = v.size ∧ tol < |k| → k ≠ 0 ∧ ∃ h', zCVecDiv tol v1 k v h = .ok h' ∧ Becomes h h' v fun i => el h v1 i / k) ∧
    (¬ (v1.size = v.size ∧ tol < |k|) → zCVecDiv tol v1 k v h = .fail) := by
  unfold zCVecDiv
  constructor
  · rintro ⟨hs, hk⟩
    have hk0 : k ≠ 0 := by rintro rfl; rw [abs_zero] at hk; exact absurd hk (not_lt.2 ht)
    rw [if_neg (by omega), if_neg (not_le.2 hk)]
    obtain ⟨h', e, hh⟩ := mulNC h v1 v i1 iv f1 (1 / k) (by omega)
    refine ⟨hk0, h', e, hh.1, fun i hi => ?_, hh.2.2⟩
    rw [hh.2.1 i hi]
    push_cast
    rw [mul_one_div]
  · intro hn
    by_cases hs : v1.size = v.size
    · rw [if_neg (by omega), if_pos (not_lt.1 fun hc => hn ⟨hs, hc⟩)]
    · rw [if_pos hs]

/-- C184: the copy. -/
theorem zCVecCopy_checked :
    (v1.size = v.size → ∃ h', zCVecCopy v1 v h = .ok h' ∧ Becomes h h' v fun i => el h v1 i) ∧ (v1.size ≠ v.size → zCVecCopy v1 v h = .fail) := by
  unfold zCVecCopy
  refine ⟨fun hs => ?_, fun hn => if_neg hn⟩
  rw [if_pos hs]
  unfold CV.In at i1 iv
  unfold zCVecCopyNC
  obtain ⟨h', hl, hw⟩ := cells_loop h v.buf v.size (fun i => h.val (v1.buf + i)) (fun i h => (h.rd (v1.buf + i)).bind fun c => h.wr (v.buf + i) c)
      (fun i hi t ht hk => by
        rw [Mem.rd_ok t (by omega), bind_mk, wr_set1 t _ (by omega), fits_keep f1 hi hk])
  exact ⟨h', hl, hw⟩

/-- C184: `v1 + z v2`, also into one of the vectors, if the number `z` is not an element of the result. -/
theorem zCVecCat_checked_partial (z : Nat) (i2 : v2.In h) (f2 : Compat v2 v) (iz : z < h.size) (fz : z < v.buf ∨ v.buf + v.size ≤ z) :
    (v1.size = v2.size ∧ v1.size = v.size → ∃ h', zCVecCat v1 z v2 v h = .ok h' ∧ Becomes h h' v fun i => el h v1 i + h.val z * el h v2 i) ∧
    (¬ (v1.size = v2.size ∧ v1.size = v.size) → zCVecCat v1 z v2 v h = .fail) := by
  unfold zCVecCat
  refine ⟨fun hs => ?_, fun hn => if_pos (by omega)⟩
  rw [if_neg (by omega)]
  unfold CV.In at i1 i2 iv
  obtain ⟨h', hl, hw⟩ := cells_loop h v.buf v.size (fun i => h.val (v1.buf + i) + h.val z * h.val (v2.buf + i)) (fun i h =>
    (h.rd (v2.buf + i)).bind fun b => (h.rd z).bind fun c =>
    let dz : ℂ := ⟨b.re * c.re - b.im * c.im, b.re * c.im + b.im * c.re⟩
    cell h [v1.buf + i, v.buf + i] fun m =>
      create m (v.buf + i) (fun m => (m (v1.buf + i)).re + dz.re) (fun m => (m (v1.buf + i)).im + dz.im))
      (fun i hi t ht hk => by
        rw [Mem.rd_ok t (by omega), bind_mk, Mem.rd_ok t (by omega), bind_mk]
        dsimp only
        rw [cell_ok _ _ _ (by intro p hp; simp only [List.mem_cons, List.not_mem_nil, or_false] at hp; omega), create_eq, half_im,
          fits_keep f1 hi hk, fits_keep f2 hi hk, hk z (by omega)]
        congr 3
        apply Complex.ext
        · simp only [Complex.add_re, Complex.mul_re]; ring
        · simp only [Complex.add_im, Complex.mul_im]; ring)
  exact ⟨h', hl, hw⟩

end

/-- C184: zero in all elements. -/
theorem zCVecZero_spec (h : Mem ℂ) (v : CV) (iv : v.In h) : ∃ h', zCVecZero v h = .ok h' ∧ Becomes h h' v fun _ => 0 := by
  unfold CV.In at iv
  exact cells_loop h v.buf v.size (fun _ => 0) _ fun i hi t ht _ => wr_set1 t _ (by omega)

/-- C184: parts that are tiny, or tiny relative to the other part, are replaced with zero in all elements. -/
theorem zCVecTouchup_spec (h : Mem ℂ) (v : CV) (tol : ℝ) (iv : v.In h) :
    ∃ h', zCVecTouchup v tol h = .ok h' ∧ Becomes h h' v fun i => zComplexTouchup (el h v i) tol := by
  unfold CV.In at iv
  unfold zCVecTouchup
  obtain ⟨h', hl, hw⟩ := cells_loop h v.buf v.size (fun i => zComplexTouchup (h.val (v.buf + i)) tol)
      (fun i h => (h.rd (v.buf + i)).bind fun c => h.wr (v.buf + i) (zComplexTouchup c tol))
      (fun i hi t ht hk => by
        rw [Mem.rd_ok t (by omega), bind_mk, wr_set1 t _ (by omega), hk _ (by omega)])
  exact ⟨h', hl, hw⟩

/-- C184: a real vector becomes the real parts of a complex vector whose imaginary parts are zero. -/
theorem zVecToCVec_checked (r : Mem ℝ) (n : Nat) (hr : n ≤ r.size) (v : CV) (h : Mem ℂ) (iv : v.In h) :
    (n = v.size → ∃ h', zVecToCVec r n v h = .ok h' ∧ Becomes h h' v fun i => (r.val i : ℂ)) ∧ (n ≠ v.size → zVecToCVec r n v h = .fail) := by
  unfold zVecToCVec
  refine ⟨fun hs => ?_, fun hn => if_pos hn⟩
  rw [if_neg (by omega)]
  unfold CV.In at iv
  obtain ⟨h', hl, hw⟩ := cells_loop h v.buf v.size (fun i => (r.val i : ℂ)) (fun i h => (r.rd i).bind fun x => h.wr (v.buf + i) ⟨x, 0⟩)
      (fun i hi t ht hk => by
        rw [Mem.rd_ok r (by omega)]
        show t.wr _ _ = _
        rw [wr_set1 t _ (by omega)]
        rfl)
  exact ⟨h', hl, hw⟩

/-- The loops that write a real vector. -/
theorem reals_loop (h : Mem ℂ) (v : CV) (iv : v.In h) (r : Mem ℝ) (hr : v.size ≤ r.size) (f : ℂ → ℝ) :
    ∃ r', forUpM 0 v.size (fun i r => (h.rd (v.buf + i)).bind fun c => r.wr i (f c)) r = .ok r' ∧
      r'.size = r.size ∧ (∀ i < v.size, r'.val i = f (el h v i)) ∧ ∀ i, v.size ≤ i → r'.val i = r.val i := by
  unfold CV.In at iv
  refine forUpM_ok _ r (fun k r' => r'.size = r.size ∧ (∀ i < k, r'.val i = f (el h v i)) ∧ ∀ i, k ≤ i → r'.val i = r.val i) (Nat.zero_le _)
    ⟨rfl, by intro i hi; omega, fun _ _ => rfl⟩ ?_
  rintro i t - hi ⟨h1, h2, h3⟩
  rw [Mem.rd_ok h (by omega)]
  refine ⟨_, Mem.wr_ok t _ (by omega), h1, ?_, ?_⟩
  · intro k hk
    show (if k = i then _ else _) = _
    by_cases e : k = i
    · rw [if_pos e, e]; rfl
    · rw [if_neg e]; exact h2 k (by omega)
  · intro k hk
    show (if k = i then _ else _) = _
    rw [if_neg (by omega)]
    exact h3 k (by omega)

/-- C184: the real parts and the imaginary parts, as vectors; together with `zVecToCVec` they give the vector back. -/
theorem zCVecToReIm_checked (h : Mem ℂ) (v : CV) (iv : v.In h) (n : Nat) (r : Mem ℝ) (hr : n ≤ r.size) :
    (n = v.size → (∃ r', zCVecToReVec v h n r = .ok r' ∧ r'.size = r.size ∧ (∀ i < n, r'.val i = (el h v i).re) ∧ ∀ i, n ≤ i → r'.val i = r.val i) ∧
      ∃ r', zCVecToImVec v h n r = .ok r' ∧ r'.size = r.size ∧ (∀ i < n, r'.val i = (el h v i).im) ∧ ∀ i, n ≤ i → r'.val i = r.val i) ∧
    (n ≠ v.size → zCVecToReVec v h n r = .fail ∧ zCVecToImVec v h n r = .fail) := by
  unfold zCVecToReVec zCVecToImVec
  refine ⟨fun hs => ?_, fun hn => ⟨if_pos hn, if_pos hn⟩⟩
  subst hs
  rw [if_neg (by simp), if_neg (by simp)]
  exact ⟨reals_loop h v iv r hr Complex.re, reals_loop h v iv r hr Complex.im⟩

theorem equalLoop_spec (p q : Nat) (tol : ℝ) (h : Mem ℂ) (k i : Nat) (hp : p + i + k ≤ h.size) (hq : q + i + k ≤ h.size) :
    ∃ b, equalLoop p q tol h k i = .ok b ∧ (b = true ↔ ∀ j, i ≤ j → j < i + k → zComplexEqual (h.val (p + j)) (h.val (q + j)) tol = true) := by
  induction k generalizing i with
  | zero => exact ⟨true, rfl, by simp; intro j h1 h2; omega⟩
  | succ k ih =>
    unfold equalLoop
    rw [Mem.rd_ok h (by omega), bind_mk, Mem.rd_ok h (by omega), bind_mk]
    by_cases c : zComplexEqual (h.val (p + i)) (h.val (q + i)) tol = true
    · obtain ⟨b, hb, hs⟩ := ih (i+1) (by omega) (by omega)
      rw [if_neg (by simp [c]), hb]
      refine ⟨b, rfl, hs.trans ⟨fun H j h1 h2 => ?_, fun H j h1 h2 => H j (by omega) (by omega)⟩⟩
      by_cases e : j = i
      · rw [e]; exact c
      · exact H j (by omega) (by omega)
    · rw [if_pos (by simp [c])]
      refine ⟨false, rfl, ?_⟩
      simp only [Bool.false_eq_true, false_iff]
      intro H
      exact c (H i (by omega) (by omega))

/-- C184: two vectors are equal when they have the same size and equal elements within the tolerance. -/
theorem zCVecEqual_spec (h : Mem ℂ) (v1 v2 : CV) (tol : ℝ) (i1 : v1.In h) (i2 : v2.In h) :
    ∃ b, zCVecEqual v1 v2 tol h = .ok b ∧
      (b = true ↔ v1.size = v2.size ∧ ∀ i < v1.size, zComplexEqual (el h v1 i) (el h v2 i) tol = true) := by
  unfold CV.In at i1 i2
  unfold zCVecEqual
  by_cases hs : v1.size = v2.size
  · rw [if_neg (by omega)]
    obtain ⟨b, hb, hs'⟩ := equalLoop_spec v1.buf v2.buf tol h v1.size 0 (by omega) (by omega)
    refine ⟨b, hb, hs'.trans ⟨fun H => ⟨hs, fun i hi => H i (by omega) (by omega)⟩, fun H j _ hj => H.2 j (by omega)⟩⟩
  · rw [if_pos hs]
    exact ⟨false, rfl, by simp [hs]⟩

theorem tolLoop_spec (p : Nat) (tol : ℝ) (h : Mem ℂ) (k i : Nat) (hp : p + i + k ≤ h.size) :
    ∃ b, tolLoop p tol h k i = .ok b ∧ (b = true ↔ ∀ j, i ≤ j → j < i + k → |(h.val (p + j)).re| ≤ tol ∧ |(h.val (p + j)).im| ≤ tol) := by
  induction k generalizing i with
  | zero => exact ⟨true, rfl, by simp; intro j h1 h2; omega⟩
  | succ k ih =>
    unfold tolLoop
    rw [Mem.rd_ok h (by omega), bind_mk]
    by_cases c : |(h.val (p + i)).re| ≤ tol ∧ |(h.val (p + i)).im| ≤ tol
    · obtain ⟨b, hb, hs⟩ := ih (i+1) (by omega)
      rw [if_pos c, hb]
      refine ⟨b, rfl, hs.trans ⟨fun H j h1 h2 => ?_, fun H j h1 h2 => H j (by omega) (by omega)⟩⟩
      by_cases e : j = i
      · rw [e]; exact c
      · exact H j (by omega) (by omega)
    · rw [if_neg c]
      refine ⟨false, rfl, ?_⟩
      simp only [Bool.false_eq_true, false_iff]
      intro H
      exact c (H i (by omega) (by omega))

/-- C184: a vector is tiny when both parts of all its elements are. -/
theorem zCVecIsTol_spec (h : Mem ℂ) (v : CV) (tol : ℝ) (iv : v.In h) :
    ∃ b, zCVecIsTol v tol h = .ok b ∧ (b = true ↔ ∀ i < v.size, |(el h v i).re| ≤ tol ∧ |(el h v i).im| ≤ tol) := by
  unfold CV.In at iv
  obtain ⟨b, hb, hs⟩ := tolLoop_spec v.buf tol h v.size 0 (by omega)
  exact ⟨b, hb, hs.trans ⟨fun H i hi => H i (by omega) (by omega), fun H j _ hj => H j (by omega)⟩⟩

/-- C184 is violated by `zCVecCat` when the number is an element of the result: the elements behind it get another number.  Here `v + v₀ v` is
computed in place for a vector of two ones. -/
theorem zCVecCat_alias_violated : ∃ h', zCVecCat ⟨0, 2⟩ 0 ⟨0, 2⟩ ⟨0, 2⟩ (Mem.ofList [1, 1]) = .ok h' ∧ el h' ⟨0, 2⟩ 1 = 3 ∧
    (1 : ℂ) + 1 * 1 ≠ 3 := by
  refine ⟨⟨2, set1 (set1 (Mem.ofList [(1:ℂ), 1]).val 0 2) 1 3⟩, ?_, ?_, by norm_num⟩
  · unfold zCVecCat
    rw [if_neg (by simp)]
    show forUpM 0 2 _ _ = _
    rw [forUpM_cons (by norm_num), Mem.rd_ok _ (by decide), bind_mk]
    beta_reduce
    rw [bind_mk]
    dsimp only
    rw [cell_ok _ _ _ (by decide), create_eq, half_im]
    show forUpM (0+1) 2 _ _ = _
    rw [forUpM_cons (by norm_num), rd_mk _ (by decide), bind_mk, rd_mk _ (by decide), bind_mk, cell_ok _ _ _ (by decide), create_eq, half_im]
    show forUpM (0+1+1) 2 _ _ = _
    rw [forUpM_nil (by norm_num)]
    congr 2
    funext a
    simp only [set1]
    rcases a with _ | _ | a
    · simp [Mem.ofList]; apply Complex.ext <;> norm_num
    · simp [Mem.ofList]; apply Complex.ext <;> norm_num
    · simp
  · simp [el, set1]

/-- The hypotheses of C184 are met by two vectors of two elements, one of them also being the result, and a number behind them. -/
example : (⟨0, 2⟩ : CV).In (Mem.ofList [1, 2, 3, 4, 5]) ∧ (⟨2, 2⟩ : CV).In (Mem.ofList [1, 2, 3, 4, 5]) ∧ Compat ⟨0, 2⟩ ⟨0, 2⟩ ∧ Compat ⟨2, 2⟩ ⟨0, 2⟩ ∧
    (4 < 0 ∨ 0 + 2 ≤ 4) :=
  ⟨by unfold CV.In; decide, by unfold CV.In; decide, Or.inl rfl, Or.inr (Or.inr (by decide)), by decide⟩

/-! ## C185: products and quotients with complex numbers, inner product, norm -/

/-- C185, the part that holds: the product with a complex number, if the result is in another place than the source and the number. -/
theorem zCVecCMul_checked_partial (h : Mem ℂ) (v1 v : CV) (z : Nat) (i1 : v1.In h) (iv : v.In h) (iz : z < h.size)
    (f1 : Apart v1.buf v.size v.buf v.size) (fz : z < v.buf ∨ v.buf + v.size ≤ z) :
    (v1.size = v.size → ∃ h', zCVecCMul v1 z v h = .ok h' ∧ Becomes h h' v fun i => el h v1 i * h.val z) ∧
    (v1.size ≠ v.size → zCVecCMul v1 z v h = .fail) := by
  unfold zCVecCMul zCVecCMulNC
  refine ⟨fun hs => ?_, fun hn => if_pos hn⟩
  rw [if_neg (by omega)]
  unfold CV.In at i1 iv
  obtain ⟨h', hl, hw⟩ := cells_loop h v.buf v.size (fun i => h.val (v1.buf + i) * h.val z)
      (fun i h => cell h [v1.buf + i, z, v.buf + i] fun m => zComplexCMul m (v1.buf + i) z (v.buf + i)) (fun i hi t ht hk => by
      rw [cell_ok _ _ _ (by intro p hp; simp only [List.mem_cons, List.not_mem_nil, or_false] at hp; omega),
        (zComplexCMul_spec_partial t.val (v1.buf + i) z (v.buf + i) (by rcases f1 with f1 | f1 <;> omega) (by rcases fz with fz | fz <;> omega)).1,
        fits_keep (Or.inr f1) hi hk, hk z (by rcases fz with fz | fz <;> omega)])
  exact ⟨h', hl, hw⟩

/-- What the product with a complex number in place (`zCVecCMulNCDRC`) leaves: the imaginary part is computed from the new real part. -/
theorem zCVecCMul_inplace (h : Mem ℂ) (v : CV) (z : Nat) (iv : v.In h) (iz : z < h.size) (fz : z < v.buf ∨ v.buf + v.size ≤ z) :
    ∃ h', zCVecCMul v z v h = .ok h' ∧ Becomes h h' v fun i =>
      ⟨(el h v i * h.val z).re, (el h v i * h.val z).re * (h.val z).im + (el h v i).im * (h.val z).re⟩ := by
  unfold zCVecCMul zCVecCMulNC
  rw [if_neg (by simp)]
  unfold CV.In at iv
  obtain ⟨h', hl, hw⟩ := cells_loop h v.buf v.size
      (fun i => ⟨(h.val (v.buf + i) * h.val z).re, (h.val (v.buf + i) * h.val z).re * (h.val z).im + (h.val (v.buf + i)).im * (h.val z).re⟩)
      (fun i h => cell h [v.buf + i, z, v.buf + i] fun m => zComplexCMul m (v.buf + i) z (v.buf + i))
      (fun i hi t ht hk => by
    rw [cell_ok _ _ _ (by intro p hp; simp only [List.mem_cons, List.not_mem_nil, or_false] at hp; omega)]
    unfold zComplexCMul
    rw [create_eq, set1_same, set1_ne _ _ (by rcases fz with fz | fz <;> omega), hk (v.buf + i) (by omega), hk z (by rcases fz with fz | fz <;> omega)]
    rfl)
  exact ⟨h', hl, hw⟩

/-- C185 is violated by the product in place: every element whose product has a different real part, where the number is not real, becomes wrong. -/
theorem zCVecCMul_inplace_violated (h : Mem ℂ) (v : CV) (z : Nat) (iv : v.In h) (iz : z < h.size) (fz : z < v.buf ∨ v.buf + v.size ≤ z)
    (hz : (h.val z).im ≠ 0) (i : Nat) (hi : i < v.size) (hd : (el h v i * h.val z).re ≠ (el h v i).re) :
    ∃ h', zCVecCMul v z v h = .ok h' ∧ el h' v i ≠ el h v i * h.val z := by
  obtain ⟨h', e, hh⟩ := zCVecCMul_inplace h v z iv iz fz
  refine ⟨h', e, fun hc => ?_⟩
  rw [hh.2.1 i hi] at hc
  have := congrArg Complex.im hc
  simp only [Complex.mul_im] at this
  exact hd (mul_right_cancel₀ hz (add_right_cancel this))

example : ∃ h', zCVecCMul ⟨0, 1⟩ 1 ⟨0, 1⟩ (Mem.ofList [Complex.I, Complex.I]) = .ok h' ∧
    el h' ⟨0, 1⟩ 0 ≠ el (Mem.ofList [Complex.I, Complex.I]) ⟨0, 1⟩ 0 * (Mem.ofList [Complex.I, Complex.I]).val 1 :=
  zCVecCMul_inplace_violated (Mem.ofList [Complex.I, Complex.I]) ⟨0, 1⟩ 1 (by unfold CV.In; decide) (by decide) (by right; decide)
    (by show Complex.I.im ≠ 0; simp) 0 (by decide) (by show (Complex.I * Complex.I).re ≠ Complex.I.re; simp)

/-- C185, the part that holds: the quotient by a complex number whose squared absolute value is above the tolerance, into another place; the number may
be an element of the result. -/
theorem zCVecCDiv_checked_partial (tol : ℝ) (ht : 0 ≤ tol) (ht1 : tol ≤ 1/2) (h : Mem ℂ) (v1 v : CV) (z : Nat) (i1 : v1.In h) (iv : v.In h) (iz : z < h.size)
    (f1 : Apart v1.buf v.size v.buf v.size) :
    (v1.size = v.size → tol < Complex.normSq (h.val z) → ∃ h', zCVecCDiv tol v1 z v h = .ok h' ∧ Becomes h h' v fun i => el h v1 i / h.val z) ∧
    (v1.size ≠ v.size → zCVecCDiv tol v1 z v h = .fail) ∧
    (|(h.val z).re| ≤ tol ∧ |(h.val z).im| ≤ tol → zCVecCDiv tol v1 z v h = .fail) := by
  unfold zCVecCDiv
  refine ⟨fun hs hz => ?_, fun hs => if_pos hs, fun hz => ?_⟩
  · have h1 : ¬ (|(h.val z).re| ≤ tol ∧ |(h.val z).im| ≤ tol) := by
      intro h1
      rw [Complex.normSq_apply, ← abs_mul_abs_self (h.val z).re, ← abs_mul_abs_self (h.val z).im] at hz
      nlinarith [abs_nonneg (h.val z).re, abs_nonneg (h.val z).im, mul_le_mul h1.1 h1.1 (abs_nonneg _) ht, mul_le_mul h1.2 h1.2 (abs_nonneg _) ht]
    unfold zCVecCDivNC
    rw [if_neg (by omega), Mem.rd_ok h iz, bind_mk, if_neg h1, bind_mk]
    unfold CV.In at i1 iv
    obtain ⟨h', hl, hw⟩ := cells_loop h v.buf v.size (fun i => h.val (v1.buf + i) / h.val z)
      (fun i h' => cell h' [v1.buf + i, v.buf + i] fun m =>
      create m (v.buf + i) (fun m => (m (v1.buf + i)).re * (recip tol (h.val z)).re - (m (v1.buf + i)).im * (recip tol (h.val z)).im)
        (fun m => (m (v1.buf + i)).re * (recip tol (h.val z)).im + (m (v1.buf + i)).im * (recip tol (h.val z)).re)) (fun i hi t ht hk => by
      have hne : v1.buf + i ≠ v.buf + i := by rcases f1 with f1 | f1 <;> omega
      rw [cell_ok _ _ _ (by intro p hp; simp only [List.mem_cons, List.not_mem_nil, or_false] at hp; omega), create_eq, set1_ne _ _ hne,
        fits_keep (Or.inr f1) hi hk, div_eq_mul_inv, recip_spec, if_neg (not_le.2 hz)]
      congr 3)
    exact ⟨h', hl, hw⟩
  · by_cases hs : v1.size = v.size
    · rw [if_neg (by omega), Mem.rd_ok h iz, bind_mk, if_pos hz]
    · rw [if_pos hs]

/-- C185 is violated by the quotient in place (`zCVecCDivNCDRC`): the quotient of 1 by `i` comes out as 0. -/
theorem zCVecCDiv_inplace_violated : ∃ h', zCVecCDivNC (1/1000000000000) ⟨0, 1⟩ 1 ⟨0, 1⟩ (Mem.ofList [1, Complex.I]) = .ok h' ∧
    el h' ⟨0, 1⟩ 0 ≠ 1 / Complex.I := by
  refine ⟨⟨2, set1 (Mem.ofList [1, Complex.I]).val 0 0⟩, ?_, ?_⟩
  · unfold zCVecCDivNC
    have hr : recip (1/1000000000000) ((Mem.ofList [1, Complex.I]).val 1) = -Complex.I := by
      rw [recip_spec]
      show (if Complex.normSq Complex.I ≤ _ then _ else Complex.I⁻¹) = _
      rw [Complex.normSq_I, if_neg (by norm_num), Complex.inv_I]
    rw [Mem.rd_ok _ (by decide), bind_mk, hr]
    show forUpM 0 1 _ _ = _
    rw [forUpM_cons (by norm_num), cell_ok _ _ _ (by decide), create_eq, set1_same]
    show forUpM (0+1) 1 _ _ = _
    rw [forUpM_nil (by norm_num)]
    congr 2
    show set1 _ 0 _ = set1 _ 0 _
    congr 1
    apply Complex.ext <;> simp [Mem.ofList]
  · have : el ⟨2, set1 (Mem.ofList [1, Complex.I]).val 0 0⟩ ⟨0, 1⟩ 0 = 0 := by simp [el, set1]
    rw [this]
    simp

/-- C185: the inner product is the sum of the products of the elements of the first vector with the conjugates of those of the second. -/
theorem zCVecInnerProd_checked (h : Mem ℂ) (v1 v2 : CV) (i1 : v1.In h) (i2 : v2.In h) :
    (v1.size = v2.size → zCVecInnerProd v1 v2 h = .ok (∑ i ∈ Finset.range v1.size, el h v1 i * starRingEnd ℂ (el h v2 i))) ∧
    (v1.size ≠ v2.size → zCVecInnerProd v1 v2 h = .fail) := by
  unfold zCVecInnerProd
  refine ⟨fun hs => ?_, fun hn => if_pos hn⟩
  rw [if_neg (by omega)]
  unfold CV.In at i1 i2
  have := forUpM_ok (lo := 0) (hi := v1.size) (fun i (z : ℂ) =>
    (h.rd (v1.buf + i)).bind fun a => (h.rd (v2.buf + i)).bind fun b =>
    let c : ℂ := ⟨a.re * b.re + a.im * b.im, -a.re * b.im + a.im * b.re⟩
    Res.ok (⟨z.re + c.re, z.im + c.im⟩ : ℂ)) ⟨0, 0⟩ (fun k z => z = ∑ i ∈ Finset.range k, el h v1 i * starRingEnd ℂ (el h v2 i)) (Nat.zero_le _) (by simp; rfl)
    (by
      rintro i z - hi rfl
      rw [Mem.rd_ok h (by omega), bind_mk, Mem.rd_ok h (by omega), bind_mk]
      refine ⟨_, rfl, ?_⟩
      rw [Finset.sum_range_succ]
      unfold el
      apply Complex.ext
      · simp
      · simp)
  obtain ⟨z, hz, rfl⟩ := this
  exact hz

/-- C185: the norm is the square root of the sum of the squared absolute values. -/
theorem zCVecNorm_spec (h : Mem ℂ) (v : CV) (iv : v.In h) :
    zCVecNorm v h = .ok (Real.sqrt (∑ i ∈ Finset.range v.size, ‖el h v i‖ ^ 2)) := by
  unfold zCVecNorm
  rw [(zCVecInnerProd_checked h v v iv iv).1 rfl]
  show Res.ok _ = _
  have : ∑ i ∈ Finset.range v.size, el h v i * starRingEnd ℂ (el h v i) = ((∑ i ∈ Finset.range v.size, ‖el h v i‖ ^ 2 : ℝ) : ℂ) := by
    push_cast
    exact Finset.sum_congr rfl fun i _ => by rw [Complex.mul_conj, Complex.normSq_eq_norm_sq]; push_cast; rfl
  rw [this, abs_eq, Complex.norm_real, Real.norm_eq_abs, abs_of_nonneg (Finset.sum_nonneg fun i _ => by positivity)]

/-- C185: normalisation, also in place, into a vector that is not larger: a vector whose norm is within the tolerance is refused, otherwise every element
is divided by the norm; into a vector of the same size, the result has the norm one. -/
theorem zCVecNormalize_checked_partial (tol : ℝ) (ht : 0 ≤ tol) (h : Mem ℂ) (src dest : CV) (i1 : src.In h) (iv : dest.In h) (f1 : Compat src dest)
    (hs : dest.size ≤ src.size) :
    let r := Real.sqrt (∑ i ∈ Finset.range src.size, ‖el h src i‖ ^ 2)
    (r ≤ tol → zCVecNormalize tol src dest h = .fail) ∧
    (tol < r → ∃ h', zCVecNormalize tol src dest h = .ok h' ∧ (Becomes h h' dest fun i => el h src i / r) ∧
      (dest.size = src.size → Real.sqrt (∑ i ∈ Finset.range dest.size, ‖el h' dest i‖ ^ 2) = 1)) := by
  intro r
  have hr0 : 0 ≤ r := Real.sqrt_nonneg _
  unfold zCVecNormalize
  rw [zCVecNorm_spec h src i1, bind_mk, abs_of_nonneg hr0]
  refine ⟨fun hr => if_pos hr, fun hr => ?_⟩
  have hrp : 0 < r := lt_of_le_of_lt ht hr
  rw [if_neg (not_le.2 hr)]
  obtain ⟨h', e, hh⟩ := mulNC h src dest i1 iv f1 (1 / r) hs
  have hel : ∀ i < dest.size, el h' dest i = el h src i / r := fun i hi => by
    rw [hh.2.1 i hi]; push_cast; rw [mul_one_div]
  refine ⟨h', e, ⟨hh.1, hel, hh.2.2⟩, fun hsz => ?_⟩
  have : ∑ i ∈ Finset.range dest.size, ‖el h' dest i‖ ^ 2 = (∑ i ∈ Finset.range src.size, ‖el h src i‖ ^ 2) / r ^ 2 := by
    rw [hsz, Finset.sum_div]
    refine Finset.sum_congr rfl fun i hi => ?_
    rw [hel i (by rw [hsz]; exact Finset.mem_range.1 hi), norm_div, Complex.norm_real, Real.norm_eq_abs, abs_of_nonneg hr0, div_pow]
  rw [this, Real.sq_sqrt (Finset.sum_nonneg fun i _ => by positivity)]
  rw [div_self, Real.sqrt_one]
  intro h0
  apply hrp.ne'
  show Real.sqrt _ = 0
  rw [h0, Real.sqrt_zero]

/-- C185 is violated by the normalisation: the sizes are not compared, so into a larger vector it reads behind the source; where that is the end of
the block, the behaviour is undefined. -/
theorem zCVecNormalize_size_violated : zCVecNormalize (1/1000000000000) ⟨1, 1⟩ ⟨0, 2⟩ (Mem.ofList [0, 1]) = .ub := by
  unfold zCVecNormalize
  rw [zCVecNorm_spec _ _ (by unfold CV.In; decide), bind_mk]
  have : Real.sqrt (∑ i ∈ Finset.range (⟨1, 1⟩ : CV).size, ‖el (Mem.ofList [0, 1]) ⟨1, 1⟩ i‖ ^ 2) = 1 := by
    simp [el, Mem.ofList]
  rw [this, abs_one, if_neg (by norm_num)]
  show forUpM 0 2 _ _ = _
  rw [forUpM_cons (by norm_num), cell_ok _ _ _ (by decide)]
  show forUpM (0+1) 2 _ _ = _
  have hub : ∀ (f : Heap → Heap) (g : Heap), cell ⟨2, g⟩ [1 + 1, 0 + 1] f = .ub := fun f g => if_neg fun hc => by
    have : (1 + 1 : Nat) < 2 := hc (1 + 1) (by simp)
    omega
  rw [forUpM_cons (by norm_num)]
  show (cell ⟨2, _⟩ [1 + 1, 0 + 1] _).bind _ = _
  rw [hub]
  rfl

/-- The hypotheses are met by a vector normalised in place. -/
example : (⟨0, 2⟩ : CV).In (Mem.ofList [3, 4]) ∧ Compat ⟨0, 2⟩ ⟨0, 2⟩ := ⟨by unfold CV.In; decide, Or.inl rfl⟩

end Zm.CVec
