import Verif.Props.MatMore
import Verif.Model.RawMore

/-!
# The remaining element-wise operations, comparisons and fillings of vectors and matrices
-/

set_option linter.unusedSectionVars false

namespace Zm.RawMat
open Zm RawVec Vec Mat
variable {K : Type*}

/-! ## Direct operations -/

section direct
variable (h : Mem K) (m cap rows cols : Nat) (hc : cols ≤ cap) (im : MatIn h m cap rows cols)
include hc im

/-- C217, `zRawMatTouchup`: exactly the elements within the tolerance are replaced by zero. -/
theorem zRawMatTouchup_correct [Field K] [LinearOrder K] (tol : K) : ∃ h', zRawMatTouchup m cap rows cols tol h = .ok h' ∧
    WroteMat h h' m cap rows cols (fun i j => if |h.val (m + i*cap + j)| ≤ tol then 0 else h.val (m + i*cap + j)) := by
  obtain ⟨h', e, w⟩ := mat_map1 (fun a => if Misc.zIsTol a tol then (0 : K) else a) h m cap m cap rows cols hc im im (Or.inl ⟨rfl, rfl⟩)
  refine ⟨h', e, w.1, ?_, w.2.2⟩
  intro i j hi hj
  rw [w.2.1 i j hi hj]
  simp [Misc.zIsTol]

/-- C217, `zRawMatRevDRC`. -/
theorem zRawMatRevDRC_correct [Neg K] : ∃ h', zRawMatRevDRC m cap rows cols h = .ok h' ∧ WroteMat h h' m cap rows cols (fun i j => - h.val (m + i*cap + j)) :=
  mat_map1 _ h m cap m cap rows cols hc im im (Or.inl ⟨rfl, rfl⟩)

/-- C217, `zRawMatDivDRC`: every element is divided by a number that is not zero. -/
theorem zRawMatDivDRC_correct [Field K] (k : K) (_hk : k ≠ 0) : ∃ h', zRawMatDivDRC m cap k rows cols h = .ok h' ∧
    WroteMat h h' m cap rows cols (fun i j => h.val (m + i*cap + j) / k) := by
  obtain ⟨h', e, w⟩ := zRawMatMulDRC_correct h m cap rows cols hc im (1/k)
  refine ⟨h', e, w.1, ?_, w.2.2⟩
  intro i j hi hj
  rw [w.2.1 i j hi hj]
  exact mul_one_div _ _
end direct

/-- The memory `h'` differs from `h` in the column `col` of the matrix only, whose elements are those of `f`. -/
def ColIs (h : Mem K) (m cap rows col : Nat) (f : Nat → K) (h' : Mem K) : Prop :=
  h'.size = h.size ∧ (∀ i, i < rows → h'.val (m + i*cap + col) = f i) ∧ ∀ a, (∀ i, i < rows → a ≠ m + i*cap + col) → h'.val a = h.val a

theorem col_loop (h : Mem K) (m cap rows col : Nat) (hcol : col < cap) (f : Nat → K) (body : Nat → Mem K → Res (Mem K))
    (hb : ∀ i t, i < rows → t.size = h.size → (∀ a, (∀ i', i' < i → a ≠ m + i'*cap + col) → t.val a = h.val a) → body i t = t.wr (m + col + i*cap) (f i))
    (im : ∀ i, i < rows → m + i*cap + col < h.size) : ∃ h', forUpM 0 rows body h = .ok h' ∧ ColIs h m cap rows col f h' := by
  obtain ⟨h', hh, hu⟩ := forUpM_upd rows body h (fun i => {m + col + i*cap}) (byAddr m cap fun i _ => f i) (by
      intro i t hi hu
      rw [hb i t hi hu.1 (by
        intro a ha
        refine hu.2.2 a ?_
        rintro ⟨i', hi', e⟩
        simp only [Set.mem_singleton_iff] at e
        exact ha i' hi' (by omega))]
      exact wr_upd t (f i) (by rw [hu.1]; have := im i hi; omega) _ (by
        rw [show m + col + i*cap = m + i*cap + col by omega, byAddr_eq _ _ _ hcol]))
  refine ⟨h', hh, hu.1, ?_, ?_⟩
  · intro i hi
    rw [hu.2.1 _ ⟨i, hi, by simp only [Set.mem_singleton_iff]; omega⟩, byAddr_eq _ _ _ hcol]
  · intro a ha
    refine hu.2.2 a ?_
    rintro ⟨i, hi, e⟩
    simp only [Set.mem_singleton_iff] at e
    exact ha i hi (by omega)

section columns
variable (h : Mem K) (m cap rows cols col v : Nat) (hcol : col < cols) (hc : cols ≤ cap) (im : MatIn h m cap rows cols) (iv : v + rows ≤ h.size)
  (hs : ∀ i i', i < rows → i' < rows → v + i ≠ m + i'*cap + col)
include hcol hc im

theorem own_cell {i : Nat} {t : Mem K} (hi : i < rows) (hz : t.size = h.size) (hf : ∀ a, (∀ i', i' < i → a ≠ m + i'*cap + col) → t.val a = h.val a) :
    t.rd (m+col+i*cap) = .ok (h.val (m + i*cap + col)) := by
  rw [Mem.rd_ok t (by rw [hz]; have := im i col hi hcol; omega), hf]
  · congr 2; omega
  · intro i' hi' e
    have := (cell_inj (cap := cap) (i := i) (j := col) (i' := i') (j' := col) (by omega) (by omega) (by omega)).1
    omega

include iv hs

theorem arg_cell {i : Nat} {t : Mem K} (hi : i < rows) (hz : t.size = h.size) (hf : ∀ a, (∀ i', i' < i → a ≠ m + i'*cap + col) → t.val a = h.val a) :
    t.rd (v+i) = .ok (h.val (v+i)) := by
  rw [Mem.rd_ok t (by rw [hz]; omega), hf]
  intro i' hi'
  exact hs i i' hi (by omega)

/-- C217, `zRawMatColAddDRC`: the vector is added to the column, and nothing else is changed. -/
theorem zRawMatColAddDRC_correct [Add K] : ∃ h', zRawMatColAddDRC m cap v rows col h = .ok h' ∧
    ColIs h m cap rows col (fun i => h.val (m + i*cap + col) + h.val (v+i)) h' := by
  refine col_loop h m cap rows col (by omega) _ _ ?_ (fun i hi => im i col hi hcol)
  intro i t hi hz hf
  rw [own_cell h m cap rows cols col hcol hc im hi hz hf, arg_cell h m cap rows cols col v hcol hc im iv hs hi hz hf]
  rfl

/-- C217, `zRawMatColSubDRC`. -/
theorem zRawMatColSubDRC_correct [Sub K] : ∃ h', zRawMatColSubDRC m cap v rows col h = .ok h' ∧
    ColIs h m cap rows col (fun i => h.val (m + i*cap + col) - h.val (v+i)) h' := by
  refine col_loop h m cap rows col (by omega) _ _ ?_ (fun i hi => im i col hi hcol)
  intro i t hi hz hf
  rw [own_cell h m cap rows cols col hcol hc im hi hz hf, arg_cell h m cap rows cols col v hcol hc im iv hs hi hz hf]
  rfl

/-- C217, `zRawMatColCatDRC`. -/
theorem zRawMatColCatDRC_correct [Add K] [Mul K] (k : K) : ∃ h', zRawMatColCatDRC m cap k v rows col h = .ok h' ∧
    ColIs h m cap rows col (fun i => h.val (m + i*cap + col) + k * h.val (v+i)) h' := by
  refine col_loop h m cap rows col (by omega) _ _ ?_ (fun i hi => im i col hi hcol)
  intro i t hi hz hf
  rw [own_cell h m cap rows cols col hcol hc im hi hz hf, arg_cell h m cap rows cols col v hcol hc im iv hs hi hz hf]
  rfl

omit iv hs in
/-- C217, `zRawMatColMulDRC`. -/
theorem zRawMatColMulDRC_correct [Mul K] (k : K) : ∃ h', zRawMatColMulDRC m cap k rows col h = .ok h' ∧
    ColIs h m cap rows col (fun i => h.val (m + i*cap + col) * k) h' := by
  refine col_loop h m cap rows col (by omega) _ _ ?_ (fun i hi => im i col hi hcol)
  intro i t hi hz hf
  rw [own_cell h m cap rows cols col hcol hc im hi hz hf]
  rfl
end columns

/-! ## Sums of multiples -/

/-- C217, `zRawVecCats`: the multiples of the first `n` vectors of the arguments are added. -/
theorem zRawVecCats_correct [CommRing K] (v size : Nat) : ∀ (n : Nat) (l : List (K × Nat)) (m : Mem K), v + size ≤ m.size → n ≤ l.length →
    (∀ p ∈ l.take n, p.2 + size ≤ m.size ∧ (p.2 + size ≤ v ∨ v + size ≤ p.2)) →
    ∃ m', zRawVecCats v size n l m = .ok m' ∧ Wrote m m' v size fun i => m.val (v+i) + ((l.take n).map fun p => p.1 * m.val (p.2 + i)).sum := by
  intro n
  induction n with
  | zero =>
    intro l m _ _ _
    exact ⟨m, by unfold zRawVecCats; rfl, rfl, fun i _ => by simp, fun _ _ => rfl⟩
  | succ n ih =>
    intro l m hv hl hp
    match l with
    | [] => simp at hl
    | (k, w) :: l =>
      have hw := hp (k, w) (by simp)
      simp only at hw
      obtain ⟨m1, e1, w1⟩ := zRawVecCat_correct m v w v size hv hw.1 hv (safe_self _ _) (by unfold Safe; omega) k
      have hrest : ∀ p ∈ l.take n, p.2 + size ≤ m.size ∧ (p.2 + size ≤ v ∨ v + size ≤ p.2) := fun p hm => hp p (by simp [hm])
      obtain ⟨m2, e2, w2⟩ := ih l m1 (by rw [w1.1]; exact hv) (by simpa using hl) (by
        intro p hm
        rw [w1.1]
        exact hrest p hm)
      refine ⟨m2, ?_, by rw [w2.1, w1.1], ?_, ?_⟩
      · unfold zRawVecCats
        have e1' : zRawVecCatDRC v k w size m = .ok m1 := e1
        rw [e1']
        exact e2
      · intro i hi
        rw [w2.2.1 i hi]
        beta_reduce
        rw [w1.2.1 i hi, List.take_succ_cons, List.map_cons, List.sum_cons]
        have : ((l.take n).map fun p => p.1 * m1.val (p.2 + i)) = ((l.take n).map fun p => p.1 * m.val (p.2 + i)) := by
          refine List.map_congr_left fun p hm => ?_
          have := hrest p hm
          rw [w1.2.2 _ (by omega)]
        rw [this]
        ring
      · intro a ha
        rw [w2.2.2 a ha, w1.2.2 a ha]

/-- C217, fewer arguments than announced are read past their end. -/
theorem zRawVecCats_ub [CommRing K] (v size : Nat) (n : Nat) (l : List (K × Nat)) (m : Mem K) (hv : v + size ≤ m.size)
    (hp : ∀ p ∈ l, p.2 + size ≤ m.size ∧ (p.2 + size ≤ v ∨ v + size ≤ p.2)) (h : l.length < n) : zRawVecCats v size n l m = .ub := by
  induction n generalizing l m with
  | zero => omega
  | succ n ih =>
    match l with
    | [] => rfl
    | (k, w) :: l =>
      have hw := hp (k, w) (by simp)
      obtain ⟨m1, e1, w1⟩ := zRawVecCat_correct m v w v size hv hw.1 hv (safe_self _ _) (by unfold Safe; have := hw.2; simp only at this; omega) k
      unfold zRawVecCats
      have e1' : zRawVecCatDRC v k w size m = .ok m1 := e1
      rw [e1']
      exact ih l m1 (by rw [w1.1]; exact hv) (by intro p hm; rw [w1.1]; exact hp p (by simp [hm])) (by simpa using h)

/-- C217, `zRawVecLinearSum`: the sum of the multiples of the first `n` vectors of the arguments, whatever the destination held. -/
theorem zRawVecLinearSum_correct [CommRing K] (v size n : Nat) (l : List (K × Nat)) (m : Mem K) (hv : v + size ≤ m.size) (hn : n ≤ l.length)
    (hp : ∀ p ∈ l.take n, p.2 + size ≤ m.size ∧ (p.2 + size ≤ v ∨ v + size ≤ p.2)) :
    ∃ m', zRawVecLinearSum v size n l m = .ok m' ∧ Wrote m m' v size fun i => ((l.take n).map fun p => p.1 * m.val (p.2 + i)).sum := by
  obtain ⟨m1, e1, w1⟩ := zRawVecSetAll_correct m v size hv 0
  obtain ⟨m2, e2, w2⟩ := zRawVecCats_correct v size n l m1 (by rw [w1.1]; exact hv) hn (by intro p hm; rw [w1.1]; exact hp p hm)
  refine ⟨m2, by unfold zRawVecLinearSum; rw [e1]; exact e2, by rw [w2.1, w1.1], ?_, ?_⟩
  · intro i hi
    rw [w2.2.1 i hi]
    beta_reduce
    rw [w1.2.1 i hi, zero_add]
    congr 1
    refine List.map_congr_left fun p hm => ?_
    have := hp p hm
    rw [w1.2.2 _ (by omega)]
  · intro a ha
    rw [w2.2.2 a ha, w1.2.2 a ha]

/-! ## Comparisons -/

theorem whileAll_spec (f : Nat → Res Bool) (g : Nat → Bool) : ∀ n i, (∀ j, i ≤ j → j < i + n → f j = .ok (g j)) →
    ∃ b, whileAll f n i = .ok b ∧ (b = true ↔ ∀ j, i ≤ j → j < i + n → g j = true) := by
  intro n
  induction n with
  | zero =>
    intro i _
    exact ⟨true, rfl, by simp only [true_iff]; intro j h1 h2; omega⟩
  | succ n ih =>
    intro i h
    unfold whileAll
    rw [h i (Nat.le_refl _) (by omega)]
    simp only [Res.bind]
    by_cases hb : g i = false
    · rw [if_pos hb]
      refine ⟨false, rfl, ?_⟩
      constructor
      · intro x; cases x
      · intro hh
        have := hh i (Nat.le_refl _) (by omega)
        rw [hb] at this
        exact this
    · rw [if_neg hb]
      obtain ⟨b, e, hbb⟩ := ih (i+1) (fun j h1 h2 => h j (by omega) (by omega))
      refine ⟨b, e, hbb.trans ?_⟩
      constructor
      · intro hh j h1 h2
        by_cases hj : j = i
        · subst hj; simpa using hb
        · exact hh j (by omega) (by omega)
      · intro hh j h1 h2
        exact hh j (by omega) (by omega)

/-- The numbers are equal within the relative tolerance, or within the absolute one where both are less than one in magnitude. -/
def Close [Field K] [LinearOrder K] (tol a b : K) : Prop := |a - b| ≤ tol * max 1 (max |a| |b|)

section comparisons
variable (m : Mem K) (v1 v2 n : Nat) (h1 : v1 + n ≤ m.size) (h2 : v2 + n ≤ m.size)
include h1

/-- C217, `zRawVecIsTol`. -/
theorem zRawVecIsTol_iff [Field K] [LinearOrder K] (tol : K) : ∃ b, zRawVecIsTol v1 n tol m = .ok b ∧ (b = true ↔ ∀ i, i < n → |m.val (v1+i)| ≤ tol) := by
  obtain ⟨b, e, hb⟩ := whileAll_spec (fun i => (m.rd (v1+i)).bind fun a => .ok (Misc.zIsTol a tol)) (fun i => Misc.zIsTol (m.val (v1+i)) tol) n 0 (by
    intro j _ hj
    beta_reduce
    rw [Mem.rd_ok m (by omega)]; rfl)
  refine ⟨b, e, hb.trans ?_⟩
  simp [Misc.zIsTol]

include h2

/-- C217, `zRawVecEqual`. -/
theorem zRawVecEqual_iff [Field K] [LinearOrder K] (tol : K) : ∃ b, zRawVecEqual v1 v2 n tol m = .ok b ∧
    (b = true ↔ ∀ i, i < n → Close tol (m.val (v1+i)) (m.val (v2+i))) := by
  obtain ⟨b, e, hb⟩ := whileAll_spec (fun i => (m.rd (v1+i)).bind fun a => (m.rd (v2+i)).bind fun b => .ok (Misc.zEqual (.fin a) (.fin b) tol))
    (fun i => Misc.zEqual (.fin (m.val (v1+i))) (.fin (m.val (v2+i))) tol) n 0 (by
    intro j _ hj
    beta_reduce
    rw [Mem.rd_ok m (show v1 + j < m.size by omega), Mem.rd_ok m (show v2 + j < m.size by omega)]; rfl)
  refine ⟨b, e, hb.trans ?_⟩
  simp [Misc.zEqual, Misc.zIsTol, Close]

/-- C217, `zRawVecMatch`. -/
theorem zRawVecMatch_iff [DecidableEq K] : ∃ b, zRawVecMatch v1 v2 n m = .ok b ∧ (b = true ↔ ∀ i, i < n → m.val (v1+i) = m.val (v2+i)) := by
  obtain ⟨b, e, hb⟩ := whileAll_spec (fun i => (m.rd (v1+i)).bind fun a => (m.rd (v2+i)).bind fun b => .ok (decide (a = b)))
    (fun i => decide (m.val (v1+i) = m.val (v2+i))) n 0 (by
    intro j _ hj
    beta_reduce
    rw [Mem.rd_ok m (show v1 + j < m.size by omega), Mem.rd_ok m (show v2 + j < m.size by omega)]; rfl)
  refine ⟨b, e, hb.trans ?_⟩
  simp
end comparisons

theorem rowsAll {P : Nat → Nat → Prop} {rows cols : Nat} (f : Nat → Res Bool)
    (h : ∀ i, i < rows → ∃ b, f i = .ok b ∧ (b = true ↔ ∀ j, j < cols → P i j)) :
    ∃ b, whileAll f rows 0 = .ok b ∧ (b = true ↔ ∀ i j, i < rows → j < cols → P i j) := by
  classical
  obtain ⟨b, e, hb⟩ := whileAll_spec f (fun i => decide (∀ j, j < cols → P i j)) rows 0 (by
    intro i _ hi
    obtain ⟨b, e, hb⟩ := h i (by omega)
    rw [e]
    congr 1
    rw [Bool.eq_iff_iff, hb]
    simp)
  refine ⟨b, e, hb.trans ?_⟩
  simp only [Nat.zero_le, Nat.zero_add, true_implies, decide_eq_true_eq]
  exact ⟨fun x i j hi hj => x i hi j hj, fun x i hi j hj => x i j hi hj⟩

theorem row_end {h : Mem K} {base cap rows cols i : Nat} (hin : MatIn h base cap rows cols) (hi : i < rows) (hz : 0 < cols) :
    base + i*cap + cols ≤ h.size := by
  have := hin i (cols - 1) hi (by omega); omega

section matcmp
variable (h : Mem K) (m1 cap1 m2 cap2 rows cols : Nat) (i1 : MatIn h m1 cap1 rows cols) (i2 : MatIn h m2 cap2 rows cols)
include i1

/-- C217, `zRawMatIsTol`. -/
theorem zRawMatIsTol_iff [Field K] [LinearOrder K] (tol : K) : ∃ b, zRawMatIsTol m1 cap1 rows cols tol h = .ok b ∧
    (b = true ↔ ∀ i j, i < rows → j < cols → |h.val (m1 + i*cap1 + j)| ≤ tol) := by
  refine rowsAll _ fun i hi => ?_
  rcases Nat.eq_zero_or_pos cols with rfl | hz
  · exact ⟨true, rfl, by simp⟩
  · exact zRawVecIsTol_iff h (m1 + i*cap1) cols (row_end i1 hi hz) tol
include i2

/-- C217, `zRawMatEqual`. -/
theorem zRawMatEqual_iff [Field K] [LinearOrder K] (tol : K) : ∃ b, zRawMatEqual m1 cap1 m2 cap2 rows cols tol h = .ok b ∧
    (b = true ↔ ∀ i j, i < rows → j < cols → Close tol (h.val (m1 + i*cap1 + j)) (h.val (m2 + i*cap2 + j))) := by
  refine rowsAll _ fun i hi => ?_
  rcases Nat.eq_zero_or_pos cols with rfl | hz
  · exact ⟨true, rfl, by simp⟩
  · exact zRawVecEqual_iff h (m1 + i*cap1) (m2 + i*cap2) cols (row_end i1 hi hz) (row_end i2 hi hz) tol

/-- C217, `zRawMatMatch`. -/
theorem zRawMatMatch_iff [DecidableEq K] : ∃ b, zRawMatMatch m1 cap1 m2 cap2 rows cols h = .ok b ∧
    (b = true ↔ ∀ i j, i < rows → j < cols → h.val (m1 + i*cap1 + j) = h.val (m2 + i*cap2 + j)) := by
  refine rowsAll _ fun i hi => ?_
  rcases Nat.eq_zero_or_pos cols with rfl | hz
  · exact ⟨true, rfl, by simp⟩
  · exact zRawVecMatch_iff h (m1 + i*cap1) (m2 + i*cap2) cols (row_end i1 hi hz) (row_end i2 hi hz)
end matcmp

/-! ## Random elements -/

/-- C217, `zRawVecRandUniform`: the elements are the numbers drawn, one after another. -/
theorem zRawVecRandUniform_correct (rnd : Nat → K → K → K) (pos v n : Nat) (lo hi : K) (m : Mem K) (hv : v + n ≤ m.size) :
    ∃ m', zRawVecRandUniform rnd pos v n lo hi m = .ok m' ∧ Wrote m m' v n fun i => rnd (pos+i) lo hi :=
  store_loop m v n (fun i _ => .ok (rnd (pos+i) lo hi)) _ hv (fun _ _ _ _ _ => rfl)

/-- C217, `zRawVecRand`: the limits may be anywhere but in the destination. -/
theorem zRawVecRand_correct (rnd : Nat → K → K → K) (pos v lo hi n : Nat) (m : Mem K) (hv : v + n ≤ m.size) (hl : lo + n ≤ m.size) (hh : hi + n ≤ m.size)
    (sl : lo + n ≤ v ∨ v + n ≤ lo) (sh : hi + n ≤ v ∨ v + n ≤ hi) :
    ∃ m', zRawVecRand rnd pos v lo hi n m = .ok m' ∧ Wrote m m' v n fun i => rnd (pos+i) (m.val (lo+i)) (m.val (hi+i)) := by
  obtain ⟨m', e, w⟩ := store_loop m v n (fun i m => do return rnd (pos+i) (← m.rd (lo+i)) (← m.rd (hi+i)))
    (fun i => rnd (pos+i) (m.val (lo+i)) (m.val (hi+i))) hv (by
      intro i t hi' hz hf
      rw [Mem.rd_ok t (by omega), Mem.rd_ok t (by omega), hf _ (by omega), hf _ (by omega)]
      rfl)
  refine ⟨m', ?_, w⟩
  rw [← e]
  unfold zRawVecRand
  congr 1
  funext i m
  cases m.rd (lo+i) <;> cases m.rd (hi+i) <;> rfl

/-- C217, `zRawMatRandUniform`: the elements are the numbers drawn, row by row. -/
theorem zRawMatRandUniform_correct (rnd : Nat → K → K → K) (pos m cap : Nat) (lo hi : K) (rows cols : Nat) (h : Mem K) (hc : cols ≤ cap)
    (im : MatIn h m cap rows cols) :
    ∃ h', zRawMatRandUniform rnd pos m cap lo hi rows cols h = .ok h' ∧ WroteMat h h' m cap rows cols fun i j => rnd (pos + i*cols + j) lo hi := by
  refine rows_wrote h m cap rows cols _ hc _ ?_
  intro i t hi' hz _
  rcases Nat.eq_zero_or_pos cols with rfl | hpos
  · exact ⟨t, rfl, wrote_zero _ _ _⟩
  exact zRawVecRandUniform_correct rnd (pos + i*cols) (m + i*cap) cols lo hi t (row_in im hi' hz hpos)

/-- C217, `zRawMatRand`. -/
theorem zRawMatRand_correct (rnd : Nat → K → K → K) (pos m cap lo lcap hi hcap rows cols : Nat) (h : Mem K) (hc : cols ≤ cap)
    (im : MatIn h m cap rows cols) (il : MatIn h lo lcap rows cols) (ih : MatIn h hi hcap rows cols)
    (sl : Sep lo lcap rows cols m cap rows cols) (sh : Sep hi hcap rows cols m cap rows cols) :
    ∃ h', zRawMatRand rnd pos m cap lo lcap hi hcap rows cols h = .ok h' ∧
      WroteMat h h' m cap rows cols fun i j => rnd (pos + i*cols + j) (h.val (lo + i*lcap + j)) (h.val (hi + i*hcap + j)) := by
  refine rows_wrote h m cap rows cols _ hc _ ?_
  intro i t hi' hz hf
  rcases Nat.eq_zero_or_pos cols with rfl | hpos
  · exact ⟨t, rfl, wrote_zero _ _ _⟩
  obtain ⟨t', e, w⟩ := zRawVecRand_correct rnd (pos + i*cols) (m + i*cap) (lo + i*lcap) (hi + i*hcap) cols t (row_in im hi' hz hpos) (row_in il hi' hz hpos)
    (row_in ih hi' hz hpos) (sl.disjoint hi') (sh.disjoint hi')
  refine ⟨t', e, w.1, ?_, w.2.2⟩
  intro j hj
  rw [w.2.1 j hj]
  beta_reduce
  rw [hf _ (fun a b ha hb => sl i j hi' hj a b (by omega) hb), hf _ (fun a b ha hb => sh i j hi' hj a b (by omega) hb)]

/-- C217, elements drawn within the limits of the generator stay within them: every element of the matrix lies between its own limits. -/
theorem zRawMatRand_within [LinearOrder K] (rnd : Nat → K → K → K) (hr : ∀ p a b, a ≤ b → a ≤ rnd p a b ∧ rnd p a b ≤ b) (pos m cap lo lcap hi hcap rows cols : Nat)
    (h : Mem K) (hc : cols ≤ cap) (im : MatIn h m cap rows cols) (il : MatIn h lo lcap rows cols) (ih : MatIn h hi hcap rows cols)
    (sl : Sep lo lcap rows cols m cap rows cols) (sh : Sep hi hcap rows cols m cap rows cols)
    (hlh : ∀ i j, i < rows → j < cols → h.val (lo + i*lcap + j) ≤ h.val (hi + i*hcap + j)) :
    ∃ h', zRawMatRand rnd pos m cap lo lcap hi hcap rows cols h = .ok h' ∧ ∀ i j, i < rows → j < cols →
      h.val (lo + i*lcap + j) ≤ h'.val (m + i*cap + j) ∧ h'.val (m + i*cap + j) ≤ h.val (hi + i*hcap + j) := by
  obtain ⟨h', e, w⟩ := zRawMatRand_correct rnd pos m cap lo lcap hi hcap rows cols h hc im il ih sl sh
  refine ⟨h', e, fun i j hi' hj => ?_⟩
  rw [w.2.1 i j hi' hj]
  exact hr _ _ _ (hlh i j hi' hj)

/-! ## Elements from lists and arrays -/

/-- C217, `zVecSetElemVList`: with as many arguments as there are elements the elements are the arguments in order, and the others are left for the caller. -/
theorem zVecSetElemVList_correct (v : VecRef) (args : List K) (m : Mem K) (hv : v.In m) (hn : v.size ≤ args.length) :
    ∃ m', zVecSetElemVList v args m = .ok (m', args.drop v.size) ∧ m'.size = m.size ∧ (∀ i, i < v.size → args[i]? = some (velem m' v i)) ∧
      ∀ a, a < v.buf ∨ v.buf + v.size ≤ a → m'.val a = m.val a := by
  unfold VecRef.In at hv
  obtain ⟨s, e, es, hz, hw, hf⟩ := forUpM_ok (lo := 0) (hi := v.size) (fun i (s : Mem K × List K) => do
      let a ← vaArg s.2
      return (← s.1.wr (v.buf + i) a.1, a.2)) (m, args)
    (fun k s => s.2 = args.drop k ∧ s.1.size = m.size ∧ (∀ i, i < k → args[i]? = some (s.1.val (v.buf + i))) ∧
      ∀ a, a < v.buf ∨ v.buf + k ≤ a → s.1.val a = m.val a) (Nat.zero_le _) ⟨rfl, rfl, by simp, by simp⟩ (by
    rintro k ⟨t, l⟩ - hk ⟨hl, hz, hw, hf⟩
    simp only at hl hz hw hf
    have hlt : k < args.length := by omega
    have hl' : l = args[k] :: args.drop (k+1) := by rw [hl, List.drop_eq_getElem_cons hlt]
    refine ⟨(⟨t.size, fun j => if j = v.buf + k then args[k] else t.val j⟩, args.drop (k+1)), ?_, rfl, hz, ?_, ?_⟩
    · rw [hl']
      simp [vaArg, Mem.wr_ok t _ (show v.buf + k < t.size by omega)]
    · intro i hi
      by_cases hik : i = k
      · subst hik; simp [hlt]
      · simp only; rw [if_neg (by omega), hw i (by omega)]
    · intro a ha
      simp only; rw [if_neg (by omega), hf a (by omega)])
  exact ⟨s.1, by unfold zVecSetElemVList; rw [e, ← es], hz, hw, hf⟩

/-- C217, `zMatSetElemList`: the arguments are the elements row by row. -/
theorem zMatSetElemList_correct (m : MatRef) (args : List K) (h : Mem K) (hm : m.In h) (hn : m.rows * m.cols ≤ args.length) :
    ∃ h', zMatSetElemList m args h = .ok (h', args.drop (m.rows * m.cols)) ∧ h'.size = h.size ∧
      (∀ i j, i < m.rows → j < m.cols → args[i * m.cols + j]? = some (elem h' m i j)) ∧
      ∀ a, (∀ i j, i < m.rows → j < m.cols → a ≠ m.buf + i * m.colcap + j) → h'.val a = h.val a := by
  have hin := hm.matIn
  have hcc := hm.2.1
  obtain ⟨s, e, es, hz, hw, hf⟩ := forUpM_ok (lo := 0) (hi := m.rows) (fun i (s : Mem K × List K) => zVecSetElemVList ⟨m.buf + i*m.colcap, m.cols⟩ s.2 s.1) (h, args)
    (fun k s => s.2 = args.drop (k * m.cols) ∧ s.1.size = h.size ∧ (∀ i j, i < k → j < m.cols → args[i * m.cols + j]? = some (elem s.1 m i j)) ∧
      ∀ a, (∀ i j, i < k → j < m.cols → a ≠ m.buf + i * m.colcap + j) → s.1.val a = h.val a) (Nat.zero_le _) ⟨by simp, rfl, by intro i j hi; omega, fun _ _ => rfl⟩ (by
    rintro k ⟨t, l⟩ - hk ⟨hl, hz, hw, hf⟩
    simp only at hl hz hw hf
    have hle : (k+1) * m.cols ≤ m.rows * m.cols := Nat.mul_le_mul_right _ (by omega)
    rw [Nat.succ_mul] at hle
    rcases Nat.eq_zero_or_pos m.cols with hc0 | hpos
    · refine ⟨(t, l), by unfold zVecSetElemVList; rw [hc0]; rfl, ?_, hz, ?_, ?_⟩
      · rw [hl, hc0]; simp
      · intro i j _ hj; omega
      · intro a _
        exact hf a (by intro i j _ hj; omega)
    · obtain ⟨t', e', z', w', f'⟩ := zVecSetElemVList_correct ⟨m.buf + k*m.colcap, m.cols⟩ l t (by
          unfold VecRef.In
          have := hin k (m.cols - 1) hk (by omega)
          simp only; omega) (by rw [hl, List.length_drop]; simp only; omega)
      simp only at e' w' f'
      refine ⟨(t', l.drop m.cols), e', ?_, by rw [z', hz], ?_, ?_⟩
      · rw [hl, List.drop_drop]; congr 1; rw [Nat.succ_mul]
      · intro i j hi hj
        by_cases hik : i = k
        · subst hik
          have := w' j hj
          rw [hl, List.getElem?_drop] at this
          exact this
        · rw [hw i j (by omega) hj]
          unfold elem
          congr 1
          refine (f' _ ?_).symm
          left
          have : (i+1) * m.colcap ≤ k * m.colcap := Nat.mul_le_mul_right _ (by omega)
          rw [Nat.succ_mul] at this
          omega
      · intro a ha
        rw [f' a ?_]
        · exact hf a (fun i j hi hj => ha i j (by omega) hj)
        · by_contra hcon
          exact ha k (a - (m.buf + k*m.colcap)) (by omega) (by omega) (by omega))
  exact ⟨s.1, by unfold zMatSetElemList; rw [e, ← es], hz, hw, hf⟩

/-- C217, fewer arguments than elements are read past their end. -/
theorem zVecSetElemVList_ub (v : VecRef) (args : List K) (m : Mem K) (hv : v.In m) (hn : args.length < v.size) : zVecSetElemVList v args m = .ub := by
  unfold VecRef.In at hv
  obtain ⟨m', e, _, _, _⟩ := zVecSetElemVList_correct ⟨v.buf, args.length⟩ args m (by unfold VecRef.In; simp only; omega) (Nat.le_refl _)
  unfold zVecSetElemVList at e ⊢
  simp only [List.drop_length] at e
  rw [forUpM_split (mid := args.length) (by omega) (by omega), e]
  simp only [Res.bind]
  rw [forUpM_cons (by omega)]
  rfl

/-- C217, `zVecCopyArray`: refuses an array of another size and otherwise copies it. -/
theorem zVecCopyArray_checked (array size : Nat) (v : VecRef) (m : Mem K) (hv : v.In m) (ha : array + size ≤ m.size)
    (s : array + size ≤ v.buf ∨ v.buf + v.size ≤ array) :
    Guarded m (zVecCopyArray array size v m) (v.size = size) (VecIs m v fun i => m.val (array + i)) := by
  unfold VecRef.In at hv
  refine guard (by simp) fun e => ?_
  subst e
  obtain ⟨m', e', w⟩ := zRawVecCopy_correct m array v.buf v.size ha hv (by omega)
  exact ⟨m', e', w.1, w.2.1, fun a h => w.2.2 a (by omega)⟩

/-- C217, `zMatCopyArray`: refuses an array of other sizes and otherwise copies it row by row. -/
theorem zMatCopyArray_checked (array rows cols : Nat) (m : MatRef) (h : Mem K) (hm : m.In h) (ha : array + rows * cols ≤ h.size)
    (s : array + rows * cols ≤ m.buf ∨ m.buf + m.rowcap * m.colcap ≤ array) :
    Guarded h (zMatCopyArray array rows cols m h) (m.rows = rows ∧ m.cols = cols) (MatIs h m fun i j => h.val (array + i*cols + j)) := by
  refine guard (by tauto) ?_
  rintro ⟨rfl, rfl⟩
  have hin := hm.matIn
  obtain ⟨hr, hcc, hz⟩ := hm
  have cell : ∀ i j, i < m.rows → j < m.cols → i * m.cols + j < m.rows * m.cols := by
    intro i j hi hj
    have : (i+1) * m.cols ≤ m.rows * m.cols := Nat.mul_le_mul_right _ (by omega)
    rw [Nat.succ_mul] at this
    omega
  have cellm : ∀ i j, i < m.rows → j < m.cols → i * m.colcap + j < m.rowcap * m.colcap := by
    intro i j hi hj
    have : (i+1) * m.colcap ≤ m.rowcap * m.colcap := Nat.mul_le_mul_right _ (by omega)
    rw [Nat.succ_mul] at this
    omega
  exact zRawMatCopy_correct h array m.cols m.buf m.colcap m.rows m.cols hcc (by intro i j hi hj; have := cell i j hi hj; omega) hin (by
    intro i j hi hj a b ha' hb
    have := cell i j hi hj
    have := cellm a b ha' hb
    omega)

/-! ## Examples -/

/-- Two rows of two columns in rows of three cells, a vector of two, and a second matrix. -/
def exMem : Mem ℚ := Mem.ofList [1, -2, 50, 3, 4, 60, 10, 20, 0, 5, 7, 8]

example : MatIn exMem 0 3 2 2 ∧ (6 + 2 ≤ exMem.size) ∧ (∀ i i', i < 2 → i' < 2 → 6 + i ≠ 0 + i'*3 + 1) ∧ (1 : Nat) < 2 := by
  refine ⟨?_, by decide, ?_, by decide⟩
  · intro i j hi hj
    show _ < 12
    omega
  · intro i i' _ _ e; omega

example : ∃ h', zRawMatColCatDRC 0 3 2 6 2 1 exMem = .ok h' ∧ h'.val 1 = 18 ∧ h'.val 4 = 44 ∧ h'.val 0 = 1 :=
  ⟨_, rfl, by decide +kernel, by decide +kernel, by decide +kernel⟩

example : ∃ h', zRawMatTouchup 0 3 2 2 (5/2) exMem = .ok h' ∧ h'.val 0 = 0 ∧ h'.val 1 = 0 ∧ h'.val 3 = 3 ∧ h'.val 2 = 50 :=
  ⟨_, rfl, by decide +kernel, by decide +kernel, by decide +kernel, by decide +kernel⟩

example : ∃ h', zRawVecLinearSum 9 2 2 [(2, 0), (3, 6), (7, 100)] exMem = .ok h' ∧ h'.val 9 = 32 ∧ h'.val 10 = 56 :=
  ⟨_, rfl, by decide +kernel, by decide +kernel⟩

example : zRawMatEqual 0 3 0 3 2 2 (0 : ℚ) exMem = .ok true ∧ zRawMatEqual 0 3 6 3 2 2 (1/10 : ℚ) exMem = .ok false := by
  constructor <;> decide +kernel

example : ∃ h', zMatSetElemList ⟨0, 2, 3, 2, 2⟩ [11, 12, 13, 14, 15] exMem = .ok (h', [15]) ∧ h'.val 1 = 12 ∧ h'.val 2 = 50 ∧ h'.val 3 = 13 :=
  ⟨_, rfl, by decide +kernel, by decide +kernel, by decide +kernel⟩

example : ∃ rnd : Nat → ℚ → ℚ → ℚ, (∀ p a b, a ≤ b → a ≤ rnd p a b ∧ rnd p a b ≤ b) ∧ rnd 0 1 2 ≠ rnd 1 1 2 :=
  ⟨fun p a b => if p = 0 then a else b, by
    intro p a b hab
    by_cases hp : p = 0
    · simp [hp, hab]
    · simp [hp, hab], by norm_num⟩

/-! ## Blocks at signed positions -/

theorem memcpyI_nat (src dest n : Nat) (m : Mem K) : memcpyI (src : Int) (dest : Int) n m = zRawVecCopy src dest n m := by
  unfold memcpyI zRawVecCopy map1
  rw [if_neg (by omega : ¬ (n : Int) < 0), Int.toNat_natCast]
  by_cases hc : 0 < n ∧ ¬ (src + n ≤ dest ∨ dest + n ≤ src)
  · rw [if_pos (by omega), if_pos (by omega)]
  rw [if_neg (by omega), if_neg (by omega)]
  congr 1
  funext i t
  have hr : t.rdI ((src : Int) + i) = t.rd (src + i) := by
    unfold Mem.rdI Mem.rd
    by_cases hs : src + i < t.size
    · rw [if_pos (by omega), if_pos hs]; rfl
    · rw [if_neg (by omega), if_neg hs]
  have hw : ∀ x, t.wrI ((dest : Int) + i) x = t.wr (dest + i) x := by
    intro x
    unfold Mem.wrI Mem.wr
    by_cases hs : dest + i < t.size
    · rw [if_pos (by omega), if_pos hs]
      congr 2
      funext j
      by_cases hj : j = dest + i
      · rw [if_pos (by omega), if_pos hj]
      · rw [if_neg (by omega), if_neg hj]
    · rw [if_neg (by omega), if_neg hs]
  rw [hr]
  congr 1
  funext x
  exact hw x

/-- C223: at positions that are not negative a block that fits is copied, element by element, and nothing else changes; a block that does not fit is refused.  Missing: negative
positions, see `zMatGet_negative_violated`. -/
theorem zMatGetI_partial (h : Mem K) (src : MatRef) (r c : Nat) (dest : MatRef) (i1 : src.In h) (im : dest.In h)
    (ha : src.buf + src.rowcap * src.colcap ≤ dest.buf ∨ dest.buf + dest.rowcap * dest.colcap ≤ src.buf) :
    ((r + dest.rows ≤ src.rows ∧ c + dest.cols ≤ src.cols) →
      ∃ h', zMatGetI src r c dest h = .ok (h', true) ∧
        WroteMat h h' dest.buf dest.colcap dest.rows dest.cols (fun i j => h.val (src.buf + (r+i)*src.colcap + (c+j)))) ∧
    (¬ (r + dest.rows ≤ src.rows ∧ c + dest.cols ≤ src.cols) → zMatGetI src r c dest h = .ok (h, false)) := by
  constructor
  · rintro ⟨hr, hc⟩
    obtain ⟨h', e, w⟩ := (zMatGet_checked h src r c dest i1 im ha).1 ⟨hr, hc⟩
    refine ⟨h', ?_, w⟩
    rw [← e]
    unfold zMatGetI zMatGet zRawMatGet
    rw [if_neg (by omega), if_neg (by omega), if_neg (by omega), if_neg (by omega)]
    have : ∀ i : Nat, (src.buf : Int) + (r : Int)*src.colcap + c + i*src.colcap = ((src.buf + r*src.colcap + c + i*src.colcap : Nat) : Int) := by
      intro i; push_cast; ring
    have t : ∀ i : Nat, (dest.buf : Int) + i*dest.colcap = ((dest.buf + i*dest.colcap : Nat) : Int) := by
      intro i; push_cast; ring
    simp only [this, t, memcpyI_nat]
    rfl
  · intro hn
    unfold zMatGetI
    rw [if_pos (by omega)]

/-- C223: the same for the block that is written. -/
theorem zMatPutI_partial (h : Mem K) (dest : MatRef) (r c : Nat) (src : MatRef) (i1 : src.In h) (im : dest.In h)
    (ha : src.buf + src.rowcap * src.colcap ≤ dest.buf ∨ dest.buf + dest.rowcap * dest.colcap ≤ src.buf) :
    ((r + src.rows ≤ dest.rows ∧ c + src.cols ≤ dest.cols) →
      ∃ h', zMatPutI dest r c src h = .ok (h', true) ∧
        WroteMat h h' (dest.buf + r*dest.colcap + c) dest.colcap src.rows src.cols (fun i j => h.val (src.buf + i*src.colcap + j))) ∧
    (¬ (r + src.rows ≤ dest.rows ∧ c + src.cols ≤ dest.cols) → zMatPutI dest r c src h = .ok (h, false)) := by
  constructor
  · rintro ⟨hr, hc⟩
    obtain ⟨h', e, w⟩ := (zMatPut_checked h dest r c src i1 im ha).1 ⟨hr, hc⟩
    refine ⟨h', ?_, w⟩
    rw [← e]
    unfold zMatPutI zMatPut zRawMatPut
    rw [if_neg (by omega), if_neg (by omega), if_neg (by omega), if_neg (by omega)]
    have : ∀ i : Nat, (dest.buf : Int) + (r : Int)*dest.colcap + c + i*dest.colcap = ((dest.buf + r*dest.colcap + c + i*dest.colcap : Nat) : Int) := by
      intro i; push_cast; ring
    have t : ∀ i : Nat, (src.buf : Int) + i*src.colcap = ((src.buf + i*src.colcap : Nat) : Int) := by
      intro i; push_cast; ring
    simp only [this, t, memcpyI_nat]
    rfl
  · intro hn
    unfold zMatPutI
    rw [if_pos (by omega)]

/-- C223 is violated: with a negative row number a block is accepted and read in front of the matrix, which is undefined where the memory begins with it. -/
theorem zMatGet_negative_violated (h : Mem K) (src dest : MatRef) (c : Nat) (hr : 0 < dest.rows) (hw : 0 < dest.cols) (hs : dest.rows ≤ src.rows + 1)
    (hc : c + dest.cols ≤ src.cols) (hcap : src.cols ≤ src.colcap) (hb : src.buf = 0) : zMatGetI src (-1) c dest h = .ub := by
  unfold zMatGetI
  rw [if_neg (by omega), forUpM_cons hr]
  have : memcpyI ((src.buf : Int) + (-1)*src.colcap + c + (0 : Nat)*src.colcap) (dest.buf + (0 : Nat)*dest.colcap) dest.cols h = .ub := by
    unfold memcpyI
    by_cases ho : 0 < dest.cols ∧ ¬ ((src.buf : Int) + (-1)*src.colcap + c + (0 : Nat)*src.colcap + dest.cols ≤ dest.buf + (0 : Nat)*dest.colcap ∨
      (dest.buf : Int) + (0 : Nat)*dest.colcap + dest.cols ≤ src.buf + (-1)*src.colcap + c + (0 : Nat)*src.colcap)
    · rw [if_pos ho]
    rw [if_neg ho, forUpM_cons hw]
    have : h.rdI ((src.buf : Int) + (-1)*src.colcap + c + (0 : Nat)*src.colcap + (0 : Nat)) = .ub := by
      unfold Mem.rdI; rw [if_neg (by omega)]
    rw [this]; rfl
  rw [this]; rfl

/-- C223 is violated by the block that is written as well: with a negative column number the last elements of the row before are overwritten and the caller is told that all is well.
A 2×2 matrix at the address 0, a 1×2 matrix at the address 4, the position (1, -1). -/
theorem zMatPut_negative_violated : ∃ h' : Mem ℤ, zMatPutI ⟨0, 2, 2, 2, 2⟩ 1 (-1) ⟨4, 1, 2, 1, 2⟩ (Mem.ofList [1, 2, 3, 4, 5, 6]) = .ok (h', true) ∧
    (List.range 6).map h'.val = [1, 5, 6, 4, 5, 6] := ⟨_, rfl, by decide +kernel⟩

/-- The hypotheses are met: a 2×2 block of a 3×3 matrix. -/
example : (⟨0, 3, 3, 3, 3⟩ : MatRef).In (Mem.ofList (List.range 13)) ∧ (⟨9, 2, 2, 2, 2⟩ : MatRef).In (Mem.ofList (List.range 13)) ∧ 1 + 2 ≤ 3 := by
  refine ⟨⟨?_, ?_, ?_⟩, ⟨?_, ?_, ?_⟩, ?_⟩ <;> decide

end Zm.RawMat
