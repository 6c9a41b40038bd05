import Verif.Props.Mat
import Verif.Props.Stat
import Verif.Model.MatMore

/-!
# Rows and columns, products, tests and searches of matrices
-/

set_option linter.unusedSectionVars false

namespace Zm.Mat
open Zm RawVec RawMat Vec
variable {K : Type*}

/-- Outcome of an operation that refuses bad arguments: on `good` ones it succeeds and the memory afterwards satisfies `P`; otherwise it fails and the memory is
unchanged. -/
def Guarded (h : Mem K) (out : Res (Mem K × Bool)) (good : Prop) (P : Mem K → Prop) : Prop :=
  (good → ∃ h', out = .ok (h', true) ∧ P h') ∧ (¬ good → out = .ok (h, false))

theorem guard {h : Mem K} {r : Res (Mem K)} {c good : Prop} [Decidable c] {P : Mem K → Prop} (hc : c ↔ ¬ good) (hr : good → ∃ h', r = .ok h' ∧ P h') :
    Guarded h (if c then .ok (h, false) else r.bind fun h => .ok (h, true)) good P := by
  constructor
  · intro hg
    obtain ⟨h', e, p⟩ := hr hg
    refine ⟨h', ?_, p⟩
    rw [if_neg (fun x => (hc.1 x) hg), e]; rfl
  · intro hn
    rw [if_pos (hc.2 hn)]

theorem guard2 {h : Mem K} {r : Res (Mem K)} {c d good : Prop} [Decidable c] [Decidable d] {P : Mem K → Prop} (hc : (c ∨ d) ↔ ¬ good)
    (hr : good → ∃ h', r = .ok h' ∧ P h') :
    Guarded h (if c then .ok (h, false) else if d then .ok (h, false) else r.bind fun h => .ok (h, true)) good P := by
  constructor
  · intro hg
    obtain ⟨h', e, p⟩ := hr hg
    refine ⟨h', ?_, p⟩
    rw [if_neg (fun x => (hc.1 (Or.inl x)) hg), if_neg (fun x => (hc.1 (Or.inr x)) hg), e]; rfl
  · intro hn
    by_cases x : c
    · rw [if_pos x]
    · rw [if_neg x, if_pos (by tauto)]

/-- No common cell. -/
def MatRef.Disj (a b : MatRef) : Prop := a.buf + a.rowcap * a.colcap ≤ b.buf ∨ b.buf + b.rowcap * b.colcap ≤ a.buf

/-- No common cell with a vector. -/
def MatRef.VDisj (m : MatRef) (v : VecRef) : Prop := m.buf + m.rowcap * m.colcap ≤ v.buf ∨ v.buf + v.size ≤ m.buf

/-- The element (i,j) of a matrix in a memory. -/
def elem (h : Mem K) (m : MatRef) (i j : Nat) : K := h.val (m.buf + i * m.colcap + j)

/-- The element i of a vector in a memory. -/
def velem (h : Mem K) (v : VecRef) (i : Nat) : K := h.val (v.buf + i)

/-- The memory `h'` differs from `h` in the elements of the matrix only, which are those of `f`. -/
def MatIs (h : Mem K) (m : MatRef) (f : Nat → Nat → K) (h' : Mem K) : Prop :=
  h'.size = h.size ∧ (∀ i j, i < m.rows → j < m.cols → elem h' m i j = f i j) ∧
  ∀ a, (∀ i j, i < m.rows → j < m.cols → a ≠ m.buf + i * m.colcap + j) → h'.val a = h.val a

/-- The memory `h'` differs from `h` in the elements of the vector only, which are those of `f`. -/
def VecIs (h : Mem K) (v : VecRef) (f : Nat → K) (h' : Mem K) : Prop :=
  h'.size = h.size ∧ (∀ i, i < v.size → velem h' v i = f i) ∧ ∀ a, ¬ (v.buf ≤ a ∧ a < v.buf + v.size) → h'.val a = h.val a

theorem matIs_of {h h' : Mem K} {m : MatRef} {f : Nat → Nat → K} (w : WroteMat h h' m.buf m.colcap m.rows m.cols f) : MatIs h m f h' := w

theorem vecIs_of {h h' : Mem K} {v : VecRef} {f : Nat → K} (w : Wrote h h' v.buf v.size f) : VecIs h v f h' :=
  ⟨w.1, w.2.1, fun a ha => w.2.2 a (by omega)⟩

theorem vout {m : MatRef} {h : Mem K} {v : VecRef} (im : m.In h) (s : m.VDisj v) : ∀ j, j < v.size → Outside m.buf m.colcap m.rows m.cols (v.buf + j) := by
  intro j hj i' j' hi' hj'
  have h1 : (i'+1) * m.colcap ≤ m.rowcap * m.colcap := Nat.mul_le_mul_right _ (by have := im.1; omega)
  rw [Nat.add_mul] at h1
  have := im.2.1
  unfold MatRef.VDisj at s
  omega

theorem vout' {m : MatRef} {h : Mem K} {v : VecRef} (im : m.In h) (s : m.VDisj v) {i j : Nat} (hi : i < m.rows) (hj : j < m.cols) :
    m.buf + i * m.colcap + j < v.buf ∨ v.buf + v.size ≤ m.buf + i * m.colcap + j := by
  have h1 : (i+1) * m.colcap ≤ m.rowcap * m.colcap := Nat.mul_le_mul_right _ (by have := im.1; omega)
  rw [Nat.add_mul] at h1
  have := im.2.1
  unfold MatRef.VDisj at s
  omega

/-! ## Element-wise operations with a check of the sizes -/

section elementwise
variable (h : Mem K) (m1 m2 m : MatRef) (i1 : m1.In h) (i2 : m2.In h) (im : m.In h)
include i1 im

theorem size_neg (a b : MatRef) : (!zMatSizeEqual a b) = true ↔ ¬ (a.rows = b.rows ∧ a.cols = b.cols) := by
  simp only [zMatSizeEqual, Bool.not_eq_true', Bool.and_eq_false_iff, beq_eq_false_iff_ne]; tauto

/-- C170, `zMatCopy`: copies a matrix of the same size, refuses others. -/
theorem zMatCopy_checked (s : m1.Disj m) : Guarded h (zMatCopy m1 m h) (m1.rows = m.rows ∧ m1.cols = m.cols) (MatIs h m fun i j => elem h m1 i j) := by
  refine guard (size_neg h m1 m i1 im m1 m) ?_
  rintro ⟨r, c⟩
  have j1 := i1.matIn
  have sp := sep_of_apart i1 im s
  rw [r, c] at j1 sp
  exact zRawMatCopy_correct h m1.buf m1.colcap m.buf m.colcap m.rows m.cols im.2.1 j1 im.matIn sp

/-- C170, `zMatRev`, also in place. -/
theorem zMatRev_checked [Neg K] (s : m1.Apart m) :
    Guarded h (zMatRev m1 m h) (m1.rows = m.rows ∧ m1.cols = m.cols) (MatIs h m fun i j => -elem h m1 i j) := by
  refine guard (size_neg h m1 m i1 im m1 m) ?_
  rintro ⟨r, c⟩
  have j1 := i1.matIn
  rw [r, c] at j1
  exact zRawMatRev_correct h m1.buf m1.colcap m.buf m.colcap m.rows m.cols im.2.1 j1 im.matIn (compat_of_apart i1 im s r c)

/-- C170, `zMatMul`, also in place. -/
theorem zMatMul_checked [Mul K] (k : K) (s : m1.Apart m) :
    Guarded h (zMatMul m1 k m h) (m1.rows = m.rows ∧ m1.cols = m.cols) (MatIs h m fun i j => elem h m1 i j * k) := by
  refine guard (size_neg h m1 m i1 im m1 m) ?_
  rintro ⟨r, c⟩
  have j1 := i1.matIn
  rw [r, c] at j1
  exact zRawMatMul_correct h m1.buf m1.colcap m.buf m.colcap m.rows m.cols im.2.1 j1 im.matIn (compat_of_apart i1 im s r c) k

include i2 in
/-- C170, `zMatCat`, also in place. -/
theorem zMatCat_checked [Add K] [Mul K] (k : K) (s1 : m1.Apart m) (s2 : m2.Apart m) :
    Guarded h (zMatCat m1 k m2 m h) ((m1.rows = m2.rows ∧ m1.cols = m2.cols) ∧ m1.rows = m.rows ∧ m1.cols = m.cols)
      (MatIs h m fun i j => elem h m1 i j + elem h m2 i j * k) := by
  refine guard ?_ ?_
  · rw [Bool.or_eq_true, size_neg h m1 m i1 im, size_neg h m1 m i1 im]; tauto
  rintro ⟨⟨r2, c2⟩, r, c⟩
  have j1 := i1.matIn
  have j2 := i2.matIn
  rw [r, c] at j1
  rw [← r2, ← c2, r, c] at j2
  exact zRawMatCat_correct h m1.buf m1.colcap m2.buf m2.colcap m.buf m.colcap m.rows m.cols im.2.1 j1 j2 im.matIn
    (compat_of_apart i1 im s1 r c) (compat_of_apart i2 im s2 (by omega) (by omega)) k

/-- C170, `zMatT`: the transpose of the other matrix. -/
theorem zMatT_checked (s : m1.Disj m) : Guarded h (zMatT m1 m h) (m.cols = m1.rows ∧ m.rows = m1.cols) (MatIs h m fun i j => elem h m1 j i) := by
  refine guard (by omega) ?_
  rintro ⟨c, r⟩
  have jm := im.matIn
  have sp := sep_of_apart i1 im s
  rw [r, c] at jm sp
  have hc : m1.rows ≤ m.colcap := by have := im.2.1; omega
  have w := zRawMatT_correct h m1.buf m1.colcap m.buf m.colcap m1.rows m1.cols hc i1.matIn jm sp
  rw [← r, ← c] at w
  rw [← r, ← c]
  exact w

/-- C170, `zMatTGet`: the transpose of the part at (r,c), refused if it does not fit. -/
theorem zMatTGet_checked (r c : Nat) (s : m1.Disj m) :
    Guarded h (zMatTGet m1 r c m h) (r + m.cols ≤ m1.rows ∧ c + m.rows ≤ m1.cols) (MatIs h m fun i j => elem h m1 (r+j) (c+i)) := by
  refine guard (by omega) ?_
  rintro ⟨hr, hc⟩
  have w := zRawMatTGet_correct h m1.buf m1.colcap m1.rows m1.cols r c m.buf m.colcap m.rows m.cols im.2.1 i1.matIn im.matIn
    (sep_of_apart i1 im s)
  rw [Nat.min_eq_left (by omega), Nat.min_eq_left (by omega)] at w
  exact w

/-- C170, `zMatTPut`: writes the transpose of a matrix at (r,c), refused if it does not fit; the rest of the memory is unchanged. -/
theorem zMatTPut_checked (r c : Nat) (s : m1.Disj m) :
    Guarded h (zMatTPut m r c m1 h) (r + m1.cols ≤ m.rows ∧ c + m1.rows ≤ m.cols) (fun h' => h'.size = h.size ∧
      (∀ i j, i < m1.cols → j < m1.rows → elem h' m (r+i) (c+j) = elem h m1 j i) ∧
      ∀ a, (∀ i j, i < m1.cols → j < m1.rows → a ≠ m.buf + (r+i) * m.colcap + (c+j)) → h'.val a = h.val a) := by
  refine guard (by omega) ?_
  rintro ⟨hr, hc⟩
  have e : ∀ i j, m.buf + r*m.colcap + c + i*m.colcap + j = m.buf + (r+i)*m.colcap + (c+j) := by
    intro i j; rw [Nat.add_mul]; omega
  obtain ⟨h', e', w⟩ := zRawMatTPut_correct h m.buf m.colcap m.rows m.cols r c m1.buf m1.colcap m1.rows m1.cols im.2.1 i1.matIn im.matIn
    (sep_of_apart i1 im s)
  rw [Nat.min_eq_left (by omega), Nat.min_eq_left (by omega)] at w
  refine ⟨h', e', w.1, ?_, ?_⟩
  · intro i j hi hj
    rw [elem, ← e]; exact w.2.1 i j hi hj
  · intro a ha
    refine w.2.2 a fun i j hi hj => ?_
    rw [e]; exact ha i j hi hj

end elementwise

/-! ## Identity and diagonal matrices -/

theorem zRawMatZero_correct [Zero K] (h : Mem K) (m cap rows cols : Nat) (hc : cols ≤ cap) (im : MatIn h m cap rows cols) :
    ∃ h', zRawMatZero m cap rows cols h = .ok h' ∧ WroteMat h h' m cap rows cols fun _ _ => 0 := by
  refine rows_wrote h m cap rows cols _ hc _ ?_
  intro i t hi hsz _
  rcases Nat.eq_zero_or_pos cols with rfl | hpos
  · exact ⟨t, by simp [zRawVecSetAll, forUpM, forNM], wrote_zero _ _ _⟩
  · exact zRawVecSetAll_correct t (m + i*cap) cols (row_in im hi hsz hpos) 0

/-- The second loop of `zRawMatIdent` and `zRawMatDiag`. -/
theorem diag_loop (h : Mem K) (m cap rows cols : Nat) (hc : cols ≤ cap) (im : MatIn h m cap rows cols) (g : Nat → K) (z : K)
    (body : Nat → Mem K → Res (Mem K)) (h1 : Mem K) (w : WroteMat h h1 m cap rows cols fun _ _ => z)
    (hb : ∀ i t, i < min rows cols → t.size = h.size → (∀ a, Outside m cap rows cols a → t.val a = h.val a) → body i t = t.wr (m + i*(cap+1)) (g i)) :
    ∃ h', forUpM 0 (min rows cols) body h1 = .ok h' ∧ WroteMat h h' m cap rows cols fun i j => if i = j then g i else z := by
  obtain ⟨h', e, e0, e1, e2⟩ := forUpM_ok (lo := 0) (hi := min rows cols) body h1
    (fun k t => t.size = h.size ∧ (∀ i j, i < rows → j < cols → t.val (m + i*cap + j) = if i = j ∧ i < k then g i else z) ∧
      (∀ a, Outside m cap rows cols a → t.val a = h.val a))
    (Nat.zero_le _) ⟨w.1, by intro i j hi hj; rw [w.2.1 i j hi hj]; simp, w.2.2⟩
    (by
      rintro k t - hk ⟨t0, t1, t2⟩
      have ea : m + k*(cap+1) = m + k*cap + k := by rw [Nat.mul_add]; omega
      have hin := im k k (by omega) (by omega)
      refine ⟨⟨t.size, fun a => if a = m + k*(cap+1) then g k else t.val a⟩, ?_, t0, ?_, ?_⟩
      · rw [hb k t hk t0 t2, Mem.wr_ok t _ (by rw [ea, t0]; exact hin)]
      · intro i j hi hj
        simp only
        by_cases hij : i = k ∧ j = k
        · obtain ⟨rfl, rfl⟩ := hij
          rw [if_pos ea.symm, if_pos ⟨rfl, by omega⟩]
        · rw [if_neg, t1 i j hi hj]
          · by_cases hd : i = j
            · subst hd
              have hne : i ≠ k := fun x => hij ⟨x, x⟩
              by_cases hl : i < k
              · rw [if_pos ⟨rfl, hl⟩, if_pos ⟨rfl, by omega⟩]
              · rw [if_neg (fun x => hl x.2), if_neg (fun x => hl (by omega))]
            · rw [if_neg (fun x => hd x.1), if_neg (fun x => hd x.1)]
          · intro x
            rw [ea] at x
            exact hij (cell_inj (cap := cap) (by omega) (by omega) (by omega))
      · intro a ha
        simp only
        rw [if_neg, t2 a ha]
        intro x
        exact ha k k (by omega) (by omega) (by rw [x, ea]))
  refine ⟨h', e, e0, ?_, e2⟩
  intro i j hi hj
  rw [e1 i j hi hj]
  beta_reduce
  by_cases hd : i = j
  · subst hd
    rw [if_pos ⟨rfl, by omega⟩, if_pos rfl]
  · rw [if_neg (fun x => hd x.1), if_neg hd]

/-- C171, `zRawMatIdent`: ones on the diagonal and zeros elsewhere, also for matrices that are not square. -/
theorem zRawMatIdent_correct [Zero K] [One K] (h : Mem K) (m cap rows cols : Nat) (hc : cols ≤ cap) (im : MatIn h m cap rows cols) :
    ∃ h', zRawMatIdent m cap rows cols h = .ok h' ∧ WroteMat h h' m cap rows cols fun i j => if i = j then 1 else 0 := by
  obtain ⟨h1, e, w⟩ := zRawMatZero_correct h m cap rows cols hc im
  obtain ⟨h', e', w'⟩ := diag_loop h m cap rows cols hc im (fun _ => 1) 0 (fun i h => h.wr (m + i*(cap+1)) 1) h1 w (fun _ _ _ _ _ => rfl)
  refine ⟨h', ?_, w'⟩
  unfold zRawMatIdent
  rw [e]; exact e'

/-- C171, `zRawMatDiag`: the given diagonal and zeros elsewhere. -/
theorem zRawMatDiag_correct [Zero K] (h : Mem K) (m cap d rows cols : Nat) (hc : cols ≤ cap) (im : MatIn h m cap rows cols)
    (id : d + min rows cols ≤ h.size) (hs : ∀ i, i < min rows cols → Outside m cap rows cols (d + i)) :
    ∃ h', zRawMatDiag m cap d rows cols h = .ok h' ∧ WroteMat h h' m cap rows cols fun i j => if i = j then h.val (d + i) else 0 := by
  obtain ⟨h1, e, w⟩ := zRawMatZero_correct h m cap rows cols hc im
  obtain ⟨h', e', w'⟩ := diag_loop h m cap rows cols hc im (fun i => h.val (d + i)) 0 (fun i h => do h.wr (m + i*(cap+1)) (← h.rd (d+i))) h1 w (by
    intro i t hi ht ho
    rw [Mem.rd_ok t (by rw [ht]; omega), ho _ (hs i hi)]; rfl)
  refine ⟨h', ?_, w'⟩
  unfold zRawMatDiag
  rw [e]; exact e'

/-- C171, `zMatIdent`: the identity matrix; a matrix that is not square is refused. -/
theorem zMatIdent_checked [Zero K] [One K] (h : Mem K) (m : MatRef) (im : m.In h) :
    Guarded h (zMatIdent m h) (m.rows = m.cols) (MatIs h m fun i j => if i = j then 1 else 0) :=
  guard (by omega) fun _ => zRawMatIdent_correct h m.buf m.colcap m.rows m.cols im.2.1 im.matIn

/-- C171, `zMatDiag`: the diagonal matrix; a matrix that is not square and a diagonal of another size are refused. -/
theorem zMatDiag_checked [Zero K] (h : Mem K) (m : MatRef) (d : VecRef) (im : m.In h) (id : d.In h) (s : m.VDisj d) :
    Guarded h (zMatDiag m d h) (m.rows = m.cols ∧ d.size = m.cols) (MatIs h m fun i j => if i = j then velem h d i else 0) := by
  refine guard2 (by omega) ?_
  rintro ⟨hr, hd⟩
  refine zRawMatDiag_correct h m.buf m.colcap d.buf m.rows m.cols im.2.1 im.matIn (by unfold VecRef.In at id; omega) fun i hi => ?_
  exact vout im s i (by omega)

/-! ## Rows and columns -/

/-- What the functions on a row or column do with a position. -/
theorem guardPos {h : Mem K} {r : Nat → Res (Mem K)} {c : Prop} [Decidable c] {n : Nat} {pos : Int} {P : Mem K → Prop} (hp : 0 ≤ pos)
    (hr : ¬ c → pos.toNat < n → ∃ h', r pos.toNat = .ok h' ∧ P h') :
    Guarded h (if c then .ok (h, false) else if pos ≥ n then .ok (h, false) else if pos < 0 then .ub else (r pos.toNat).bind fun h => .ok (h, true))
      (¬ c ∧ pos < n) P := by
  constructor
  · rintro ⟨g1, g2⟩
    obtain ⟨h', e, p⟩ := hr g1 (by omega)
    refine ⟨h', ?_, p⟩
    rw [if_neg g1, if_neg (by omega), if_neg (by omega), e]; rfl
  · intro hn
    by_cases x : c
    · rw [if_pos x]
    · rw [if_neg x, if_pos (by by_contra y; exact hn ⟨x, by omega⟩)]

theorem guardNeg {h : Mem K} {r : Nat → Res (Mem K)} {c : Prop} [Decidable c] {n : Nat} {pos : Int} (hp : pos < 0) (hc : ¬ c) :
    (if c then (.ok (h, false) : Res (Mem K × Bool)) else if pos ≥ n then .ok (h, false) else if pos < 0 then .ub else (r pos.toNat).bind fun h => .ok (h, true)) =
      .ub := by
  rw [if_neg hc, if_neg (by omega), if_pos hp]

section rows
variable (h : Mem K) (m : MatRef) (v : VecRef) (im : m.In h) (iv : v.In h) (s : m.VDisj v)
include im iv s

/-- C172, `zMatGetRow` for a position that is not negative. -/
theorem zMatGetRow_partial (row : Int) (hr : 0 ≤ row) :
    Guarded h (zMatGetRow m row v h) (v.size = m.cols ∧ row < m.rows) (VecIs h v fun j => elem h m row.toNat j) := by
  have w := guardPos (h := h) (r := fun k => zRawMatGetRow m.buf m.colcap m.cols k v.buf h) (c := m.cols ≠ v.size) (n := m.rows) (pos := row)
    (P := VecIs h v fun j => elem h m row.toNat j) hr (by
      intro hc hl
      have hc : m.cols = v.size := by omega
      obtain ⟨h', e, w⟩ := zRawMatGetRow_correct h m.buf m.colcap m.rows m.cols row.toNat v.buf hl im.matIn (by rw [hc]; exact iv)
        (by rw [hc]; have := vout im s; rwa [hc] at this)
      rw [hc] at w
      exact ⟨h', e, vecIs_of w⟩)
  rwa [show (¬ m.cols ≠ v.size ∧ row < m.rows) = (v.size = m.cols ∧ row < m.rows) by rw [eq_iff_iff]; omega] at w

/-- C172, `zMatGetCol` for a position that is not negative. -/
theorem zMatGetCol_partial (col : Int) (hr : 0 ≤ col) :
    Guarded h (zMatGetCol m col v h) (v.size = m.rows ∧ col < m.cols) (VecIs h v fun i => elem h m i col.toNat) := by
  have w := guardPos (h := h) (r := fun k => zRawMatGetCol m.buf m.colcap m.rows k v.buf h) (c := m.rows ≠ v.size) (n := m.cols) (pos := col)
    (P := VecIs h v fun i => elem h m i col.toNat) hr (by
      intro hc hl
      have hc : m.rows = v.size := by omega
      have ea : ∀ i, m.buf + col.toNat + i * m.colcap = m.buf + i * m.colcap + col.toNat := by intro i; omega
      obtain ⟨h', e, w⟩ := zRawMatGetCol_correct h m.buf m.colcap m.rows col.toNat v.buf
        (by intro i hi; rw [ea]; exact im.matIn i _ hi hl) (by rw [hc]; exact iv)
        (by intro i hi; rw [ea, hc]; exact vout' im s hi hl)
      rw [hc] at w
      refine ⟨h', e, w.1, ?_, fun a ha => w.2.2 a (by omega)⟩
      intro i hi
      rw [velem, w.2.1 i hi]; beta_reduce; rw [ea]; rfl)
  rwa [show (¬ m.rows ≠ v.size ∧ col < m.cols) = (v.size = m.rows ∧ col < m.cols) by rw [eq_iff_iff]; omega] at w

/-- C172, `zMatPutRow` for a position that is not negative: the row is the vector and nothing else changes. -/
theorem zMatPutRow_partial (row : Int) (hr : 0 ≤ row) :
    Guarded h (zMatPutRow m row v h) (v.size = m.cols ∧ row < m.rows)
      (MatIs h m fun i j => if i = row.toNat then velem h v j else elem h m i j) := by
  have w := guardPos (h := h) (r := fun k => zRawMatPutRow m.buf m.colcap m.cols k v.buf h) (c := m.cols ≠ v.size) (n := m.rows) (pos := row)
    (P := MatIs h m fun i j => if i = row.toNat then velem h v j else elem h m i j) hr (by
      intro hc hl
      have hc : m.cols = v.size := by omega
      obtain ⟨h', e, w⟩ := zRawMatPutRow_correct h m.buf m.colcap m.rows m.cols row.toNat v.buf hl im.matIn (by rw [hc]; exact iv)
        (by rw [hc]; have := vout im s; rwa [hc] at this)
      refine ⟨h', e, w.1, ?_, ?_⟩
      · intro i j hi hj
        beta_reduce
        by_cases x : i = row.toNat
        · rw [if_pos x, elem, x, w.2.1 j hj, velem]
        · rw [if_neg x, elem, elem, w.2.2]
          by_contra y
          have hcc := im.2.1
          have := cell_inj (cap := m.colcap) (i := i) (j := j) (i' := row.toNat) (j' := m.buf + i * m.colcap + j - (m.buf + row.toNat * m.colcap))
            (by omega) (by omega) (by omega)
          exact x this.1
      · intro a ha
        refine w.2.2 a ?_
        by_contra y
        exact ha row.toNat (a - (m.buf + row.toNat * m.colcap)) hl (by omega) (by omega))
  rwa [show (¬ m.cols ≠ v.size ∧ row < m.rows) = (v.size = m.cols ∧ row < m.rows) by rw [eq_iff_iff]; omega] at w

/-- C172, `zMatPutCol` for a position that is not negative: the column is the vector and nothing else changes. -/
theorem zMatPutCol_partial (col : Int) (hr : 0 ≤ col) :
    Guarded h (zMatPutCol m col v h) (v.size = m.rows ∧ col < m.cols)
      (MatIs h m fun i j => if j = col.toNat then velem h v i else elem h m i j) := by
  have w := guardPos (h := h) (r := fun k => zRawMatPutCol m.buf m.colcap m.rows k v.buf h) (c := m.rows ≠ v.size) (n := m.cols) (pos := col)
    (P := MatIs h m fun i j => if j = col.toNat then velem h v i else elem h m i j) hr (by
      intro hc hl
      have hc : m.rows = v.size := by omega
      have hcc := im.2.1
      obtain ⟨h', e, w⟩ := zRawMatPutCol_correct h m.buf m.colcap m.rows m.cols col.toNat v.buf hl im.2.1 im.matIn (by rw [hc]; exact iv)
        (by rw [hc]; have := vout im s; rwa [hc] at this)
      refine ⟨h', e, w.1, ?_, ?_⟩
      · intro i j hi hj
        beta_reduce
        by_cases x : j = col.toNat
        · rw [if_pos x, elem, x, w.2.1 i hi, velem]
        · rw [if_neg x, elem, elem, w.2.2]
          intro i' hi' y
          exact x (cell_inj (cap := m.colcap) (i := i) (j := j) (i' := i') (j' := col.toNat) (by omega) (by omega) (by omega)).2
      · intro a ha
        exact w.2.2 a fun i hi => ha i _ hi hl)
  rwa [show (¬ m.rows ≠ v.size ∧ col < m.cols) = (v.size = m.rows ∧ col < m.cols) by rw [eq_iff_iff]; omega] at w


/-- C172 is violated: a negative row is undefined behaviour, where one that is too large is refused. -/
theorem zMatGetRow_violated (row : Int) (hr : row < 0) (hc : v.size = m.cols) : zMatGetRow m row v h = .ub :=
  guardNeg (r := fun k => zRawMatGetRow m.buf m.colcap m.cols k v.buf h) hr (by omega)

/-- C172 is violated: a negative column. -/
theorem zMatGetCol_violated (col : Int) (hr : col < 0) (hc : v.size = m.rows) : zMatGetCol m col v h = .ub :=
  guardNeg (r := fun k => zRawMatGetCol m.buf m.colcap m.rows k v.buf h) hr (by omega)

/-- C172 is violated: a negative row. -/
theorem zMatPutRow_violated (row : Int) (hr : row < 0) (hc : v.size = m.cols) : zMatPutRow m row v h = .ub :=
  guardNeg (r := fun k => zRawMatPutRow m.buf m.colcap m.cols k v.buf h) hr (by omega)

/-- C172 is violated: a negative column. -/
theorem zMatPutCol_violated (col : Int) (hr : col < 0) (hc : v.size = m.rows) : zMatPutCol m col v h = .ub :=
  guardNeg (r := fun k => zRawMatPutCol m.buf m.colcap m.rows k v.buf h) hr (by omega)

omit iv s in
/-- C172, `zMatSwapRow` for positions that are not negative: the two rows are exchanged. -/
theorem zMatSwapRow_partial (r1 r2 : Int) (h1 : 0 ≤ r1) (h2 : 0 ≤ r2) :
    Guarded h (zMatSwapRow m r1 r2 h) (r1 < m.rows ∧ r2 < m.rows) (MatIs h m fun i j =>
      elem h m (if (i : Int) = r1 then r2.toNat else if (i : Int) = r2 then r1.toNat else i) j) := by
  have e : ∀ i : Nat, (if (i : Int) = r1 then r2.toNat else if (i : Int) = r2 then r1.toNat else i) = Equiv.swap r1.toNat r2.toNat i := by
    intro i
    rw [Equiv.swap_apply_def]
    by_cases x : (i : Int) = r1
    · rw [if_pos x, if_pos (by omega)]
    · rw [if_neg x, if_neg (c := i = r1.toNat) (by omega)]
      by_cases y : (i : Int) = r2
      · rw [if_pos y, if_pos (by omega)]
      · rw [if_neg y, if_neg (by omega)]
  simp only [e]
  unfold zMatSwapRow
  rw [if_neg (c := r1 < 0 ∨ r2 < 0) (by omega)]
  refine guard (by omega) ?_
  rintro ⟨g1, g2⟩
  exact zRawMatSwapRow_correct h m.buf m.colcap m.rows m.cols r1.toNat r2.toNat im.2.1 im.matIn (by omega) (by omega)

omit iv s in
/-- C172, `zMatSwapCol` for positions that are not negative: the two columns are exchanged. -/
theorem zMatSwapCol_partial (c1 c2 : Int) (h1 : 0 ≤ c1) (h2 : 0 ≤ c2) :
    Guarded h (zMatSwapCol m c1 c2 h) (c1 < m.cols ∧ c2 < m.cols) (MatIs h m fun i j =>
      elem h m i (if (j : Int) = c1 then c2.toNat else if (j : Int) = c2 then c1.toNat else j)) := by
  have e : ∀ i : Nat, (if (i : Int) = c1 then c2.toNat else if (i : Int) = c2 then c1.toNat else i) = Equiv.swap c1.toNat c2.toNat i := by
    intro i
    rw [Equiv.swap_apply_def]
    by_cases x : (i : Int) = c1
    · rw [if_pos x, if_pos (by omega)]
    · rw [if_neg x, if_neg (c := i = c1.toNat) (by omega)]
      by_cases y : (i : Int) = c2
      · rw [if_pos y, if_pos (by omega)]
      · rw [if_neg y, if_neg (by omega)]
  simp only [e]
  unfold zMatSwapCol
  rw [if_neg (c := c1 < 0 ∨ c2 < 0) (by omega)]
  refine guard (by omega) ?_
  rintro ⟨g1, g2⟩
  exact zRawMatSwapCol_correct h m.buf m.colcap m.rows m.cols c1.toNat c2.toNat im.2.1 im.matIn (by omega) (by omega)

/-- C172 is violated: negative positions of rows and columns to exchange. -/
theorem zMatSwap_violated (a b : Int) (ha : a < 0 ∨ b < 0) :
    (a < m.rows → b < m.rows → zMatSwapRow m a b h = .ub) ∧ (a < m.cols → b < m.cols → zMatSwapCol m a b h = .ub) := by
  constructor <;> intro h1 h2
  · unfold zMatSwapRow; rw [if_neg (by omega), if_pos ha]
  · unfold zMatSwapCol; rw [if_neg (by omega), if_pos ha]

end rows

/-! ## Dyads, trace and products -/

section products
variable [CommRing K] (h : Mem K)
open Finset

section dyads
variable (m : MatRef) (v1 v2 : VecRef) (im : m.In h) (i1 : v1.In h) (i2 : v2.In h) (s1 : m.VDisj v1) (s2 : m.VDisj v2)
include im i1 i2 s1 s2

theorem dyad_hyps (e1 : v1.size = m.rows) (e2 : v2.size = m.cols) :
    v2.size ≤ m.colcap ∧ MatIn h m.buf m.colcap v1.size v2.size ∧ v1.buf + v1.size ≤ h.size ∧ v2.buf + v2.size ≤ h.size ∧
    (∀ i, i < v1.size → Outside m.buf m.colcap v1.size v2.size (v1.buf + i)) ∧ ∀ j, j < v2.size → Outside m.buf m.colcap v1.size v2.size (v2.buf + j) := by
  refine ⟨by rw [e2]; exact im.2.1, by rw [e1, e2]; exact im.matIn, i1, i2, ?_, ?_⟩
  · have := vout im s1
    rwa [← e1, ← e2] at this
  · have := vout im s2
    rwa [← e1, ← e2] at this

/-- C173, `zVecDyad`. -/
theorem zVecDyad_checked : Guarded h (zVecDyad v1 v2 m h) (v1.size = m.rows ∧ v2.size = m.cols) (MatIs h m fun i j => velem h v1 i * velem h v2 j) := by
  refine guard (by omega) ?_
  rintro ⟨e1, e2⟩
  obtain ⟨a, b, c, d, e, f⟩ := dyad_hyps h m v1 v2 im i1 i2 s1 s2 e1 e2
  have w := zRawVecDyad_correct h m.buf m.colcap v1.buf v1.size v2.buf v2.size a b c d e f
  unfold MatIs; rw [← e1, ← e2]; exact w

/-- C173, `zMatAddDyad`. -/
theorem zMatAddDyad_checked :
    Guarded h (zMatAddDyad m v1 v2 h) (v1.size = m.rows ∧ v2.size = m.cols) (MatIs h m fun i j => elem h m i j + velem h v1 i * velem h v2 j) := by
  refine guard (by omega) ?_
  rintro ⟨e1, e2⟩
  obtain ⟨a, b, c, d, e, f⟩ := dyad_hyps h m v1 v2 im i1 i2 s1 s2 e1 e2
  have w := zRawMatAddDyad_correct h m.buf m.colcap v1.buf v1.size v2.buf v2.size a b c d e f
  unfold MatIs; rw [← e1, ← e2]; exact w

/-- C173, `zMatSubDyad`. -/
theorem zMatSubDyad_checked :
    Guarded h (zMatSubDyad m v1 v2 h) (v1.size = m.rows ∧ v2.size = m.cols) (MatIs h m fun i j => elem h m i j - velem h v1 i * velem h v2 j) := by
  refine guard (by omega) ?_
  rintro ⟨e1, e2⟩
  obtain ⟨a, b, c, d, e, f⟩ := dyad_hyps h m v1 v2 im i1 i2 s1 s2 e1 e2
  have w := zRawMatSubDyad_correct h m.buf m.colcap v1.buf v1.size v2.buf v2.size a b c d e f
  unfold MatIs; rw [← e1, ← e2]; exact w

/-- C173, `zMatCatDyad`. -/
theorem zMatCatDyad_checked (k : K) :
    Guarded h (zMatCatDyad m k v1 v2 h) (v1.size = m.rows ∧ v2.size = m.cols) (MatIs h m fun i j => elem h m i j + k * (velem h v1 i * velem h v2 j)) := by
  refine guard (by omega) ?_
  rintro ⟨e1, e2⟩
  obtain ⟨a, b, c, d, e, f⟩ := dyad_hyps h m v1 v2 im i1 i2 s1 s2 e1 e2
  have w := zRawMatCatDyad_correct h m.buf m.colcap v1.buf v1.size v2.buf v2.size a b c d e f k
  unfold MatIs; rw [← e1, ← e2]; exact w

end dyads

/-- C173, `zMatTrace`: the sum of the diagonal, 0 if the matrix is not square. -/
theorem zMatTrace_correct (m : MatRef) (im : m.In h) :
    zMatTrace m h = .ok (if m.rows = m.cols then ∑ i ∈ range m.rows, elem h m i i else 0) := by
  unfold zMatTrace
  by_cases e : m.rows = m.cols
  · rw [if_neg (by omega), if_pos e, zRawMatTrace_correct h m.buf m.colcap m.rows m.cols im.matIn, Nat.min_eq_left (by omega)]; rfl
  · rw [if_pos e, if_neg e]

/-- C173, `zMulMatTVec`: the product with the transpose. -/
theorem zMulMatTVec_checked (m : MatRef) (v1 v : VecRef) (im : m.In h) (i1 : v1.In h) (iv : v.In h)
    (s1 : VSep v1.buf v1.size v.buf v.size) (s : m.VDisj v) :
    Guarded h (zMulMatTVec m v1 v h) (m.rows = v1.size ∧ m.cols = v.size) (VecIs h v fun j => ∑ i ∈ range m.rows, elem h m i j * velem h v1 i) := by
  refine guard (by omega) ?_
  rintro ⟨e1, e2⟩
  obtain ⟨h', e, w⟩ := zRawMulMatTVec_correct h m.buf m.colcap v1.buf m.rows m.cols v.buf im.matIn (by rw [e1]; exact i1) (by rw [e2]; exact iv)
    (by intro i j hi hj; rw [e2]; exact vout' im s hi hj) (by rw [e1, e2]; exact s1)
  rw [e2] at w
  exact ⟨h', e, vecIs_of w⟩

/-- C173, `zMulMatMatT`: the product with the transpose of the second matrix. -/
theorem zMulMatMatT_checked (m1 m2 m : MatRef) (i1 : m1.In h) (i2 : m2.In h) (im : m.In h) (s1 : m1.Disj m) (s2 : m2.Disj m) :
    Guarded h (zMulMatMatT m1 m2 m h) (m1.cols = m2.cols ∧ m1.rows = m.rows ∧ m2.rows = m.cols)
      (MatIs h m fun i j => ∑ k ∈ range m1.cols, elem h m1 i k * elem h m2 j k) := by
  refine guard (by omega) ?_
  rintro ⟨e0, e1, e2⟩
  have j1 := i1.matIn
  have j2 := i2.matIn
  have q1 := sep_of_apart i1 im s1
  have q2 := sep_of_apart i2 im s2
  rw [e1, e0] at j1 q1
  rw [e2] at j2 q2
  have w := zRawMulMatMatT_correct h m1.buf m1.colcap m.rows m2.buf m2.colcap m.cols m2.cols m.buf m.colcap im.2.1 j1 j2 im.matIn q1 q2
  rw [e0, e1, e2]
  exact w

/-- C173, `zMulMatTMat`: the product with the transpose of the first matrix. -/
theorem zMulMatTMat_checked (m1 m2 m : MatRef) (i1 : m1.In h) (i2 : m2.In h) (im : m.In h) (s1 : m1.Disj m) (s2 : m2.Disj m) :
    Guarded h (zMulMatTMat m1 m2 m h) (m1.rows = m2.rows ∧ m1.cols = m.rows ∧ m2.cols = m.cols)
      (MatIs h m fun i j => ∑ k ∈ range m1.rows, elem h m1 k i * elem h m2 k j) := by
  refine guard (by omega) ?_
  rintro ⟨e0, e1, e2⟩
  have j1 := i1.matIn
  have j2 := i2.matIn
  have q1 := sep_of_apart i1 im s1
  have q2 := sep_of_apart i2 im s2
  rw [e1] at j1 q1
  rw [← e0, e2] at j2 q2
  have w := zRawMulMatTMat_correct h m1.buf m1.colcap m1.rows m.rows m2.buf m2.colcap m.cols m.buf m.colcap im.2.1 j1 j2 im.matIn q1 q2
  rw [e1, e2]
  exact w

/-- C174 is violated: with a 2×1 matrix and a vector of size 2 `zMulMatTVecDRC` reports success and overwrites [3,4] by zeros. -/
theorem zMulMatTVecDRC_violated :
    ∃ (h : Mem ℤ) (m : MatRef) (v : VecRef) (h' : Mem ℤ), m.In h ∧ v.In h ∧ m.VDisj v ∧
      ¬ (m.cols = v.size ∧ m.rows = v.size) ∧ zMulMatTVecDRC m v 4 h = .ok (h', true) ∧
      [velem h v 0, velem h v 1] = [3, 4] ∧ [velem h' v 0, velem h' v 1] = [0, 0] :=
  ⟨Mem.ofList [1, 2, 3, 4, 9, 9], ⟨0, 2, 1, 2, 1⟩, ⟨2, 2⟩, _, by simp [MatRef.In, Mem.ofList], by simp [VecRef.In, Mem.ofList],
    by simp [MatRef.VDisj], by simp, rfl, rfl, by decide +kernel⟩

/-- C174, `zMulMatTVecDRC` for a square matrix of the size of the vector. -/
theorem zMulMatTVecDRC_partial (m : MatRef) (v : VecRef) (tmp : Nat) (im : m.In h)
    (iv : v.In h) (it : tmp + v.size ≤ h.size) (hm : m.cols = v.size) (hr : m.rows = v.size)
    (st : v.buf + v.size ≤ tmp ∨ tmp + v.size ≤ v.buf) (smt : m.VDisj ⟨tmp, v.size⟩) :
    ∃ h', zMulMatTVecDRC m v tmp h = .ok (h', true) ∧
      (∀ j, j < v.size → velem h' v j = ∑ i ∈ range v.size, elem h m i j * velem h v i) ∧
      (∀ a, ¬ (v.buf ≤ a ∧ a < v.buf + v.size) → ¬ (tmp ≤ a ∧ a < tmp + v.size) → h'.val a = h.val a) := by
  have iv' : v.buf + v.size ≤ h.size := iv
  obtain ⟨h1, e1, w1⟩ := zRawVecSetAll_correct h tmp v.size (by omega) 0
  obtain ⟨h2, e2, w2⟩ := (zMulMatTVec_checked h1 m v ⟨tmp, v.size⟩ (by
      refine ⟨im.1, im.2.1, ?_⟩; rw [w1.1]; exact im.2.2) (by unfold VecRef.In; rw [w1.1]; exact iv) (by unfold VecRef.In; rw [w1.1]; exact it)
      (by unfold VSep; simp only; omega) smt).1 ⟨hr, hm⟩
  obtain ⟨h3, e3, w3⟩ := zRawVecCopy_correct h2 tmp v.buf v.size (by rw [w2.1, w1.1]; exact it) (by rw [w2.1, w1.1]; exact iv') (by omega)
  refine ⟨h3, ?_, ?_, ?_⟩
  · unfold zMulMatTVecDRC
    rw [e1]
    show (zMulMatTVec m v ⟨tmp, v.size⟩ h1).bind _ = _
    rw [e2]
    show (zRawVecCopy tmp v.buf v.size h2).bind _ = _
    rw [e3]; rfl
  · intro j hj
    rw [velem, w3.2.1 j hj]; beta_reduce
    have := w2.2.1 j hj
    rw [velem] at this
    rw [this]; beta_reduce
    rw [hr]
    refine sum_congr rfl fun k hk => ?_
    rw [mem_range] at hk
    have o := vout' im smt (i := k) (j := j) (by omega) (by omega)
    simp only at o
    rw [elem, velem, w1.2.2 _ (by omega), w1.2.2 _ (by omega)]; rfl
  · intro a ha ht
    rw [w3.2.2 a (by omega), w2.2.2 a (by simp only; omega), w1.2.2 a (by omega)]

end products

/-! ## Searches -/

/-- `b` is the first element, row by row, at which `f` is greatest. -/
def FirstMax2 [LinearOrder K] (f : Nat → Nat → K) (rows cols : Nat) (val : K) (row col : Nat) : Prop :=
  row < rows ∧ col < cols ∧ val = f row col ∧ (∀ i j, i < rows → j < cols → f i j ≤ val) ∧
  ∀ i j, i < rows → j < cols → (i < row ∨ i = row ∧ j < col) → f i j < val

theorem search_first [LinearOrder K] (data : (Nat → K) → Nat → K × Nat) (better : K → K → Bool) (rows cols : Nat) (m f : Nat → Nat → K) (g : K → K)
    (hr : 0 < rows) (hc : 0 < cols)
    (hd : ∀ i, Stat.FirstMax (f i) cols (g (data (m i) cols).1, (data (m i) cols).2))
    (hb : ∀ i j, better (data (m i) cols).1 (data (m j) cols).1 = true ↔ g (data (m j) cols).1 < g (data (m i) cols).1) :
    ∃ b, search data better rows cols m = .ok (some b) ∧ FirstMax2 f rows cols (g b.val) b.row b.col := by
  unfold search
  rw [if_neg (by omega)]
  have main := forUp_inv (lo := 0) (hi := rows) (fun i s => searchStep better i (data (m i) cols) s) none
    (P := fun k s => (k = 0 → s = none) ∧ (0 < k → ∃ b, s = some b ∧ b.val = (data (m b.row) cols).1 ∧ FirstMax2 f k cols (g b.val) b.row b.col))
    (Nat.zero_le _) ⟨fun _ => rfl, fun x => absurd x (by omega)⟩ (by
      rintro k s - hk ⟨s0, s1⟩
      refine ⟨fun x => absurd x (by omega), fun _ => ?_⟩
      obtain ⟨d1, d2, d3, d4⟩ := hd k
      simp only at d1 d2 d3 d4
      by_cases hz : k = 0
      · rw [s0 hz]
        refine ⟨_, rfl, rfl, ?_⟩
        subst hz
        refine ⟨by simp, d1, d2, ?_, ?_⟩
        · intro i j hi hj
          obtain rfl : i = 0 := by omega
          exact d3 j hj
        · intro i j hi hj hl
          obtain rfl : i = 0 := by omega
          exact d4 j (by simp only at hl; omega)
      · obtain ⟨b, e, bv, b1, b2, b3, b4, b5⟩ := s1 (by omega)
        rw [e]
        by_cases hbt : better (data (m k) cols).1 b.val = true
        · refine ⟨⟨(data (m k) cols).1, k, (data (m k) cols).2⟩, by simp only [searchStep]; rw [if_pos hbt], rfl, ?_⟩
          rw [bv, hb, ← bv] at hbt
          refine ⟨by simp, d1, d2, ?_, ?_⟩
          · intro i j hi hj
            by_cases x : i = k
            · rw [x]; exact d3 j hj
            · exact (b4 i j (by omega) hj).trans hbt.le
          · intro i j hi hj hl
            simp only at hl
            rcases hl with hl | ⟨rfl, hl⟩
            · exact (b4 i j hl hj).trans_lt hbt
            · exact d4 j hl
        · refine ⟨b, by simp only [searchStep]; rw [if_neg hbt], bv, by omega, b2, b3, ?_, ?_⟩
          · rw [bv, hb, ← bv, not_lt] at hbt
            intro i j hi hj
            by_cases x : i = k
            · rw [x]; exact (d3 j hj).trans hbt
            · exact b4 i j (by omega) hj
          · intro i j hi hj hl
            exact b5 i j (by omega) hj hl)
  obtain ⟨b, e, -, w⟩ := main.2 hr
  exact ⟨b, by rw [e], w⟩

section searches
variable (rows cols : Nat) (m : Nat → Nat → K)

/-- C175, `zMatElemMax`: the greatest element and its first position, row by row. -/
theorem zMatElemMax_correct [Field K] [LinearOrder K] [IsStrictOrderedRing K] (hr : 0 < rows) (hc : 0 < cols) :
    ∃ b, zMatElemMax rows cols m = .ok (some b) ∧ FirstMax2 m rows cols b.val b.row b.col :=
  search_first _ _ rows cols m m (fun x => x) hr hc (fun i => Stat.zDataMax_spec (m i) cols hc) (by intro i j; simp)

/-- C175, `zMatElemMin`: the least element, that is the greatest of the negative ones. -/
theorem zMatElemMin_correct [Field K] [LinearOrder K] [IsStrictOrderedRing K] (hr : 0 < rows) (hc : 0 < cols) :
    ∃ b, zMatElemMin rows cols m = .ok (some b) ∧ FirstMax2 (fun i j => -m i j) rows cols (-b.val) b.row b.col :=
  search_first _ _ rows cols m (fun i j => -m i j) (fun x => -x) hr hc (fun i => Stat.firstMin_loop (m i) cols hc) (by intro i j; simp)

/-- C175, `zMatElemAbsMax`: the greatest absolute value (not the element) and its first position. -/
theorem zMatElemAbsMax_correct [Field K] [LinearOrder K] [IsStrictOrderedRing K] (hr : 0 < rows) (hc : 0 < cols) :
    ∃ b, zMatElemAbsMax rows cols m = .ok (some b) ∧ FirstMax2 (fun i j => |m i j|) rows cols b.val b.row b.col := by
  refine search_first _ _ rows cols m (fun i j => |m i j|) (fun x => x) hr hc (fun i => Stat.zDataAbsMax_spec (m i) cols hc) ?_
  intro i j
  rw [decide_eq_true_eq, (Stat.zDataAbsMax_spec (m i) cols hc).2.1, (Stat.zDataAbsMax_spec (m j) cols hc).2.1, abs_abs, abs_abs]

/-- C175, `zMatElemAbsMin`: the least absolute value and its first position. -/
theorem zMatElemAbsMin_correct [Field K] [LinearOrder K] [IsStrictOrderedRing K] (hr : 0 < rows) (hc : 0 < cols) :
    ∃ b, zMatElemAbsMin rows cols m = .ok (some b) ∧ FirstMax2 (fun i j => -|m i j|) rows cols (-b.val) b.row b.col := by
  refine search_first _ _ rows cols m (fun i j => -|m i j|) (fun x => -x) hr hc (fun i => Stat.firstMin_loop (fun j => |m i j|) cols hc) ?_
  intro i j
  rw [decide_eq_true_eq, (Stat.zDataAbsMin_spec (m i) cols hc).2.1, (Stat.zDataAbsMin_spec (m j) cols hc).2.1, abs_abs, abs_abs, neg_lt_neg_iff]

/-- C175: without rows the four searches find nothing (NaN), and with rows but no columns they read outside of the matrix. -/
theorem zMatElem_empty [Field K] [LinearOrder K] :
    (zMatElemMax 0 cols m = .ok none ∧ zMatElemMin 0 cols m = .ok none ∧ zMatElemAbsMax 0 cols m = .ok none ∧ zMatElemAbsMin 0 cols m = .ok none) ∧
    (0 < rows → zMatElemMax rows 0 m = .ub ∧ zMatElemMin rows 0 m = .ub ∧ zMatElemAbsMax rows 0 m = .ub ∧ zMatElemAbsMin rows 0 m = .ub) := by
  refine ⟨⟨?_, ?_, ?_, ?_⟩, fun hr => ⟨?_, ?_, ?_, ?_⟩⟩
  · unfold zMatElemMax search; rw [if_neg (by omega), forUp_of_le (le_refl _)]
  · unfold zMatElemMin search; rw [if_neg (by omega), forUp_of_le (le_refl _)]
  · unfold zMatElemAbsMax search; rw [if_neg (by omega), forUp_of_le (le_refl _)]
  · unfold zMatElemAbsMin search; rw [if_neg (by omega), forUp_of_le (le_refl _)]
  · unfold zMatElemMax search; rw [if_pos ⟨hr, rfl⟩]
  · unfold zMatElemMin search; rw [if_pos ⟨hr, rfl⟩]
  · unfold zMatElemAbsMax search; rw [if_pos ⟨hr, rfl⟩]
  · unfold zMatElemAbsMin search; rw [if_pos ⟨hr, rfl⟩]

end searches

/-! ## Tests -/

theorem allElem_iff (rows cols : Nat) (p : Nat → Nat → Bool) : allElem rows cols p = true ↔ ∀ i j, i < rows → j < cols → p i j = true := by
  unfold allElem
  simp only [List.all_eq_true, List.mem_range]
  exact ⟨fun h i j hi hj => h i hi j hj, fun h i hi j hj => h i j hi hj⟩

/-- Two numbers are the same up to the tolerance relative to the greater, at least 1. -/
def Near [Field K] [LinearOrder K] (tol a b : K) : Prop := |a - b| ≤ tol * max 1 (max |a| |b|)

section tests
variable [Field K] [LinearOrder K] (s s1 s2 : Nat × Nat) (m m1 m2 : Nat → Nat → K) (tol : K)

/-- C176, `zMatEqual`. -/
theorem zMatEqual_iff : zMatEqual s1 s2 m1 m2 tol = true ↔ s1 = s2 ∧ ∀ i j, i < s1.1 → j < s1.2 → Near tol (m1 i j) (m2 i j) := by
  unfold zMatEqual
  by_cases e : s1 = s2
  · rw [if_neg (by simp [e]), allElem_iff]
    simp only [Misc.zEqual, Misc.zIsTol, decide_eq_true_eq, e, true_and, Near]
  · rw [if_pos (by simpa using e)]; simp [e]

/-- C176, `zMatMatch`. -/
theorem zMatMatch_iff : zMatMatch s1 s2 m1 m2 = true ↔ s1 = s2 ∧ ∀ i j, i < s1.1 → j < s1.2 → m1 i j = m2 i j := by
  unfold zMatMatch
  by_cases e : s1 = s2
  · rw [if_neg (by simp [e]), allElem_iff]
    simp only [decide_eq_true_eq, e, true_and]
  · rw [if_pos (by simpa using e)]; simp [e]

/-- C176, `zMatIsTol`. -/
theorem zMatIsTol_iff : zMatIsTol s m tol = true ↔ ∀ i j, i < s.1 → j < s.2 → |m i j| ≤ tol := by
  unfold zMatIsTol
  rw [allElem_iff]
  simp only [Misc.zIsTol, decide_eq_true_eq]

/-- C176, `zMatIsDiag`: all elements off the diagonal are tiny. -/
theorem zMatIsDiag_iff : zMatIsDiag s m tol = true ↔ ∀ i j, i < s.1 → j < s.2 → i ≠ j → |m i j| ≤ tol := by
  unfold zMatIsDiag
  rw [allElem_iff]
  refine forall_congr' fun i => forall_congr' fun j => forall_congr' fun hi => forall_congr' fun hj => ?_
  by_cases e : j = i
  · rw [if_pos e]; simp [e]
  · rw [if_neg e]; simp [Misc.zIsTol, Ne.symm e]

/-- C176, `zMatIsIdent` for square matrices. -/
theorem zMatIsIdent_partial : zMatIsIdent s m tol = true ↔
    ∀ i j, i < s.1 → j < s.2 → if i = j then Near tol (m i j) 1 else |m i j| ≤ tol := by
  unfold zMatIsIdent
  rw [allElem_iff]
  refine forall_congr' fun i => forall_congr' fun j => forall_congr' fun hi => forall_congr' fun hj => ?_
  by_cases e : j = i
  · rw [if_pos e, if_pos e.symm]; simp [Misc.zEqual, Misc.zIsTol, Near]
  · rw [if_neg e, if_neg (Ne.symm e)]; simp [Misc.zIsTol]

/-- C176, `zMatIsSymmetric`: square and equal to the transpose. -/
theorem zMatIsSymmetric_iff : zMatIsSymmetric s m = true ↔ s.1 = s.2 ∧ ∀ i j, i < s.1 → j < s.2 → m i j = m j i := by
  unfold zMatIsSymmetric
  by_cases e : s.1 = s.2
  · rw [if_neg (by simp [e])]
    simp only [List.all_eq_true, List.mem_range, List.mem_range'_1, decide_eq_true_eq, e, true_and]
    constructor
    · intro h i j hi hj
      rcases Nat.lt_trichotomy i j with x | x | x
      · exact h i hi j (by omega)
      · rw [x]
      · exact (h j hj i (by omega)).symm
    · intro h i hi j hj
      exact h i j hi (by omega)
  · rw [if_pos (by simpa using e)]; simp [e]

end tests

/-- C176 is violated: `zMatIsIdent` accepts the 1×2 matrix (1 0), which `zMatIdent` refuses to make. -/
theorem zMatIsIdent_violated : zMatIsIdent (1, 2) (fun i j => if i = j then (1 : ℚ) else 0) (1/1000000000000) = true := by decide +kernel

end Zm.Mat

namespace Zm.Vec
open Zm RawVec Mat
variable {K : Type*}

/-- C176, `zVecEqual`. -/
theorem zVecEqual_iff [Field K] [LinearOrder K] (n1 n2 : Nat) (v1 v2 : Nat → K) (tol : K) :
    zVecEqual n1 n2 v1 v2 tol = true ↔ n1 = n2 ∧ ∀ i, i < n1 → Near tol (v1 i) (v2 i) := by
  unfold zVecEqual
  by_cases e : n1 = n2
  · rw [if_neg (by simp [e])]
    simp only [List.all_eq_true, List.mem_range, Misc.zEqual, Misc.zIsTol, decide_eq_true_eq, e, true_and, Near]
  · rw [if_pos (by simpa using e)]; simp [e]

/-- C176, `zVecMatch`. -/
theorem zVecMatch_iff [DecidableEq K] (n1 n2 : Nat) (v1 v2 : Nat → K) : zVecMatch n1 n2 v1 v2 = true ↔ n1 = n2 ∧ ∀ i, i < n1 → v1 i = v2 i := by
  unfold zVecMatch
  by_cases e : n1 = n2
  · rw [if_neg (by simp [e])]
    simp only [List.all_eq_true, List.mem_range, decide_eq_true_eq, e, true_and]
  · rw [if_pos (by simpa using e)]; simp [e]

/-- C176, `zVecIsTol`. -/
theorem zVecIsTol_iff [Field K] [LinearOrder K] (n : Nat) (v : Nat → K) (tol : K) : zVecIsTol n v tol = true ↔ ∀ i, i < n → |v i| ≤ tol := by
  unfold zVecIsTol
  simp only [List.all_eq_true, List.mem_range, Misc.zIsTol, decide_eq_true_eq]

/-- C176, `zVecIsNan`: some element is not a finite number. -/
theorem zVecIsNan_iff (n : Nat) (v : Nat → Misc.Dbl K) : zVecIsNan n v = true ↔ ∃ i, i < n ∧ ∀ x, v i ≠ .fin x := by
  unfold zVecIsNan
  simp only [List.any_eq_true, List.mem_range]
  refine exists_congr fun i => and_congr_right fun _ => ?_
  cases v i <;> simp

/-! ## Reordering -/

/-- C177, `zVecReorder` with an index whose elements are in range: the elements in the order of the index; other sizes are refused. -/
theorem zVecReorder_partial (m : Mem K) (src dest : VecRef) (idx : List Int) (hs : src.In m) (hd : dest.In m)
    (s : src.buf + src.size ≤ dest.buf ∨ dest.buf + dest.size ≤ src.buf) (hi : ∀ k ∈ idx, 0 ≤ k ∧ k < src.size) :
    Guarded m (zVecReorder src idx dest m) (src.size = dest.size ∧ src.size = idx.length)
      (VecIs m dest fun i => velem m src (idx.getD i 0).toNat) := by
  refine guard ?_ ?_
  · simp only [zVecSizeEqual, Bool.or_eq_true, Bool.not_eq_true', beq_eq_false_iff_ne, bne_iff_ne]; tauto
  rintro ⟨e1, e2⟩
  unfold VecRef.In at hs hd
  obtain ⟨m', e, w0, w1, w2⟩ := forUpM_ok (lo := 0) (hi := idx.length) (fun i (m : Mem K) =>
      let k := idx.getD i 0
      if k < 0 ∨ (src.size : Int) ≤ k then .ub else (m.rd (src.buf + k.toNat)).bind fun x => m.wr (dest.buf + i) x) m
    (fun k t => t.size = m.size ∧ (∀ i, i < k → t.val (dest.buf + i) = m.val (src.buf + (idx.getD i 0).toNat)) ∧
      ∀ a, ¬ (dest.buf ≤ a ∧ a < dest.buf + k) → t.val a = m.val a)
    (Nat.zero_le _) ⟨rfl, by intro i h; omega, fun _ _ => rfl⟩
    (by
      rintro k t - hk ⟨t0, t1, t2⟩
      have hmem : idx.getD k 0 ∈ idx := by
        rw [List.getD_eq_getElem?_getD, List.getElem?_eq_getElem hk]; exact List.getElem_mem hk
      obtain ⟨k0, k1⟩ := hi _ hmem
      refine ⟨⟨t.size, fun a => if a = dest.buf + k then t.val (src.buf + (idx.getD k 0).toNat) else t.val a⟩, ?_, t0, ?_, ?_⟩
      · simp only
        rw [if_neg (by omega), Mem.rd_ok t (by omega)]
        exact Mem.wr_ok t _ (by omega)
      · intro i hik
        simp only
        by_cases x : i = k
        · subst x
          rw [if_pos rfl, t2 _ (by omega)]
        · rw [if_neg (by omega), t1 i (by omega)]
      · intro a ha
        simp only
        rw [if_neg (by omega), t2 a (by omega)])
  refine ⟨m', e, w0, ?_, ?_⟩
  · intro i hi'
    exact w1 i (by omega)
  · intro a ha
    exact w2 a (by omega)

/-- C177, `zVecReorderDRC`: the elements of the vector in the order of the index; only the vector and the clone change. -/
theorem zVecReorderDRC_partial (m : Mem K) (v : VecRef) (idx : List Int) (tmp : Nat) (hv : v.In m) (ht : tmp + v.size ≤ m.size)
    (s : v.buf + v.size ≤ tmp ∨ tmp + v.size ≤ v.buf) (hi : ∀ k ∈ idx, 0 ≤ k ∧ k < v.size) (hl : idx.length = v.size) :
    ∃ m', zVecReorderDRC v idx tmp m = .ok (m', true) ∧ (∀ i, i < v.size → velem m' v i = velem m v (idx.getD i 0).toNat) ∧
      ∀ a, ¬ (v.buf ≤ a ∧ a < v.buf + v.size) → ¬ (tmp ≤ a ∧ a < tmp + v.size) → m'.val a = m.val a := by
  have hv' : v.buf + v.size ≤ m.size := hv
  obtain ⟨m1, e1, w1⟩ := zRawVecCopy_correct m v.buf tmp v.size hv ht (by omega)
  obtain ⟨m2, e2, w2⟩ := (zVecReorder_partial m1 ⟨tmp, v.size⟩ v idx (by unfold VecRef.In; rw [w1.1]; exact ht) (by unfold VecRef.In; rw [w1.1]; exact hv)
    (by simp only; omega) hi).1 ⟨rfl, hl.symm⟩
  refine ⟨m2, ?_, ?_, ?_⟩
  · unfold zVecReorderDRC
    rw [e1]
    show (zVecReorder ⟨tmp, v.size⟩ idx v m1).bind _ = _
    rw [e2]; rfl
  · intro i hi'
    rw [w2.2.1 i hi']
    have hmem : idx.getD i 0 ∈ idx := by
      rw [List.getD_eq_getElem?_getD, List.getElem?_eq_getElem (by omega)]; exact List.getElem_mem (by omega)
    have := hi _ hmem
    exact w1.2.1 _ (by omega)
  · intro a ha hb
    rw [w2.2.2 a ha, w1.2.2 a (by omega)]

/-- C177 is violated: an element of the index out of range is not refused (here on vectors of size 2: the index is that of
another vector), and `zVecReorderDRC` with an index of another size reports success although it has not reordered anything. -/
theorem zVecReorder_violated : zVecReorder ⟨0, 2⟩ [0, 2] ⟨2, 2⟩ (Mem.ofList [1, 2, 3, 4] : Mem ℤ) = .ub ∧
    ∃ m', zVecReorderDRC ⟨0, 2⟩ [1] 2 (Mem.ofList [1, 2, 3, 4] : Mem ℤ) = .ok (m', true) ∧ [m'.val 0, m'.val 1] = [1, 2] :=
  ⟨rfl, _, rfl, rfl⟩

/-! ## Linear sums -/

/-- C178, `zVecCats`: adds the multiples of those vectors that have the size of the destination, and leaves the others out. -/
theorem zVecCats_correct [CommRing K] (v : VecRef) : ∀ (l : List (K × VecRef)) (m : Mem K), v.In m →
    (∀ p ∈ l, p.2.In m ∧ (p.2.buf + p.2.size ≤ v.buf ∨ v.buf + v.size ≤ p.2.buf)) →
    ∃ m', zVecCats v l m = .ok m' ∧
      VecIs m v (fun i => velem m v i + ((l.filter fun p => p.2.size = v.size).map fun p => p.1 * velem m p.2 i).sum) m' := by
  intro l
  induction l with
  | nil =>
    intro m _ _
    exact ⟨m, rfl, rfl, fun i _ => by simp, fun _ _ => rfl⟩
  | cons p l ih =>
    obtain ⟨k, w⟩ := p
    intro m hv hl
    have hw := hl (k, w) (by simp)
    simp only at hw
    unfold VecRef.In at hv hw
    by_cases e : w.size = v.size
    · obtain ⟨m1, e1, w1⟩ := zRawVecCat_correct m v.buf w.buf v.buf v.size hv (by rw [← e]; exact hw.1) hv (safe_self _ _) (by unfold Safe; omega) k
      obtain ⟨m2, e2, w2⟩ := ih m1 (by unfold VecRef.In; rw [w1.1]; exact hv) (by
        intro p hp
        have := hl p (by simp [hp])
        unfold VecRef.In at this ⊢
        rw [w1.1]; exact this)
      refine ⟨m2, ?_, by rw [w2.1, w1.1], ?_, ?_⟩
      · unfold zVecCats zVecCatDRC zVecCat check3
        rw [if_neg (by simp [zVecSizeEqual, e]), e1]
        exact e2
      · intro i hi
        rw [w2.2.1 i hi]
        beta_reduce
        rw [List.filter_cons_of_pos (by simpa using e), List.map_cons, List.sum_cons]
        have a1 : velem m1 v i = velem m v i + velem m w i * k := w1.2.1 i hi
        have a2 : ((l.filter fun p => p.2.size = v.size).map fun p => p.1 * velem m1 p.2 i) =
            ((l.filter fun p => p.2.size = v.size).map fun p => p.1 * velem m p.2 i) := by
          refine List.map_congr_left fun p hp => ?_
          rw [List.mem_filter, decide_eq_true_eq] at hp
          have := hl p (by simp [hp.1])
          unfold velem
          rw [w1.2.2 _ (by omega)]
        rw [a1, a2]
        ring
      · intro a ha
        rw [w2.2.2 a ha, w1.2.2 a (by omega)]
    · obtain ⟨m2, e2, w2⟩ := ih m hv (fun p hp => hl p (by simp [hp]))
      refine ⟨m2, ?_, w2.1, ?_, w2.2.2⟩
      · unfold zVecCats zVecCatDRC zVecCat check3
        rw [if_pos (by simp [zVecSizeEqual, Ne.symm e])]
        exact e2
      · intro i hi
        rw [w2.2.1 i hi, List.filter_cons_of_neg (by simpa using e)]

/-- C178, `zVecLinearSum`: the sum of the multiples of those vectors that have the size of the destination. -/
theorem zVecLinearSum_correct [CommRing K] (v : VecRef) (l : List (K × VecRef)) (m : Mem K) (hv : v.In m)
    (hl : ∀ p ∈ l, p.2.In m ∧ (p.2.buf + p.2.size ≤ v.buf ∨ v.buf + v.size ≤ p.2.buf)) :
    ∃ m', zVecLinearSum v l m = .ok m' ∧ VecIs m v (fun i => ((l.filter fun p => p.2.size = v.size).map fun p => p.1 * velem m p.2 i).sum) m' := by
  have hv' : v.buf + v.size ≤ m.size := hv
  obtain ⟨m1, e1, w1⟩ := zRawVecSetAll_correct m v.buf v.size hv 0
  obtain ⟨m2, e2, w2⟩ := zVecCats_correct v l m1 (by unfold VecRef.In; rw [w1.1]; exact hv) (by
    intro p hp
    have := hl p hp
    unfold VecRef.In at this ⊢
    rw [w1.1]; exact this)
  refine ⟨m2, ?_, by rw [w2.1, w1.1], ?_, ?_⟩
  · unfold zVecLinearSum
    rw [e1]; exact e2
  · intro i hi
    rw [w2.2.1 i hi]
    beta_reduce
    have a1 : velem m1 v i = 0 := w1.2.1 i hi
    rw [a1, zero_add]
    congr 1
    refine List.map_congr_left fun p hp => ?_
    rw [List.mem_filter, decide_eq_true_eq] at hp
    have := hl p hp.1
    unfold velem
    rw [w1.2.2 _ (by omega)]
  · intro a ha
    rw [w2.2.2 a ha, w1.2.2 a (by omega)]

/-! ## Functions that do not compare the sizes -/

section unchecked
variable (m : Mem K) (src dest : VecRef)

/-- C179 for operands of the same size: shift, scaling and uniform scaling of a vector, also in place. -/
theorem zVecShiftScale_partial [CommRing K] (lo hi : VecRef) (hs : src.In m) (hd : dest.In m) (hl : lo.In m) (hh : hi.In m) (e : src.size = dest.size)
    (el : lo.size = dest.size) (eh : hi.size = dest.size) (s : Safe dest.buf src.buf dest.size) (sl : Safe dest.buf lo.buf dest.size)
    (sh : Safe dest.buf hi.buf dest.size) (x y : K) :
    (∃ m', zVecShift src x dest m = .ok m' ∧ VecIs m dest (fun i => velem m src i + x) m') ∧
    (∃ m', zVecScale src lo hi dest m = .ok m' ∧ VecIs m dest (fun i => velem m lo i + velem m src i * (velem m hi i - velem m lo i)) m') ∧
    (∃ m', zVecScaleUniform src x y dest m = .ok m' ∧ VecIs m dest (fun i => x + velem m src i * (y - x)) m') := by
  unfold VecRef.In at hs hd hl hh
  unfold zVecShift zVecScale zVecScaleUniform
  rw [e] at hs ⊢
  rw [el] at hl
  rw [eh] at hh
  refine ⟨?_, ?_, ?_⟩
  · obtain ⟨m', e', w⟩ := zRawVecShift_correct m src.buf dest.buf dest.size hs hd s x
    exact ⟨m', e', vecIs_of w⟩
  · obtain ⟨m', e', w⟩ := zRawVecScale_correct m src.buf lo.buf dest.buf dest.size hs hl hd s sl hi.buf hh sh
    exact ⟨m', e', vecIs_of w⟩
  · obtain ⟨m', e', w⟩ := zRawVecScaleUniform_correct m src.buf dest.buf dest.size hs hd s x y
    exact ⟨m', e', vecIs_of w⟩

/-- C179 for operands of the same size: interior division and the midpoint. -/
theorem zVecInterDiv_partial [Field K] (v1 v2 : VecRef) (h1 : v1.In m) (h2 : v2.In m) (hd : dest.In m) (e1 : v1.size = dest.size) (e2 : v2.size = dest.size)
    (s1 : Safe dest.buf v1.buf dest.size) (s2 : Safe dest.buf v2.buf dest.size) (r : K) :
    (∃ m', zVecInterDiv v1 v2 r dest m = .ok m' ∧ VecIs m dest (fun i => (1 - r) * velem m v1 i + r * velem m v2 i) m') ∧
    (∃ m', zVecMid v1 v2 dest m = .ok m' ∧ VecIs m dest (fun i => (velem m v1 i + velem m v2 i) / 2) m') := by
  unfold VecRef.In at h1 h2 hd
  rw [e1] at h1
  rw [e2] at h2
  constructor
  · obtain ⟨m', e', w⟩ := zRawVecInterDiv_correct m v1.buf v2.buf dest.buf dest.size h1 h2 hd s1 s2 r
    obtain ⟨a, b, c⟩ := vecIs_of w
    exact ⟨m', e', a, fun i hi => by rw [b i hi]; simp only [velem]; ring, c⟩
  · obtain ⟨m', e', w⟩ := zRawVecMid_correct m v1.buf v2.buf dest.buf dest.size h1 h2 hd s1 s2
    obtain ⟨a, b, c⟩ := vecIs_of w
    exact ⟨m', e', a, fun i hi => by rw [b i hi]; simp only [velem]; ring, c⟩

/-- C179 for vectors of the same size: `zVecNormalize` divides by the norm, and refuses a tiny vector. -/
theorem zVecNormalize_partial [Field K] [LinearOrder K] (sqrt : K → K) (tol : K) (hs : src.In m) (hd : dest.In m) (e : src.size = dest.size)
    (s : Safe dest.buf src.buf dest.size) :
    Guarded m (zVecNormalize sqrt tol src dest m) (tol < |sqrt (∑ i ∈ Finset.range src.size, velem m src i ^ 2)|)
      (VecIs m dest fun i => velem m src i / sqrt (∑ i ∈ Finset.range src.size, velem m src i ^ 2)) := by
  unfold zVecNormalize
  have hn : zRawVecSqrNorm src.buf src.size m = .ok (∑ i ∈ Finset.range src.size, m.val (src.buf + i) ^ 2) := by
    unfold zRawVecSqrNorm
    rw [zRawVecInnerProd_correct m src.buf src.buf src.size hs hs]
    congr 1
    exact Finset.sum_congr rfl fun i _ => by ring
  rw [hn]
  show Guarded m (if Misc.zIsTol (sqrt _) tol = true then _ else _) _ _
  refine guard ?_ ?_
  · simp [Misc.zIsTol, velem]
  intro _
  unfold VecRef.In at hs hd
  rw [e] at hs ⊢
  obtain ⟨m', e', w⟩ := zRawVecMul_correct m src.buf dest.buf dest.size hs hd s (1 / sqrt (∑ i ∈ Finset.range dest.size, m.val (src.buf + i) ^ 2))
  obtain ⟨a, b, c⟩ := vecIs_of w
  exact ⟨m', e', a, fun i hi => by rw [b i hi]; simp only [velem]; ring, c⟩

/-- C179 is violated: a shorter destination is not refused, and `zVecShift` writes beyond its end, whatever is there. -/
theorem zVecShift_violated [CommRing K] (hs : src.In m) (hd : dest.buf + src.size ≤ m.size) (e : dest.size < src.size)
    (s : src.buf + src.size ≤ dest.buf ∨ dest.buf + src.size ≤ src.buf) (x : K) :
    ∃ m', zVecShift src x dest m = .ok m' ∧ m'.val (dest.buf + dest.size) = velem m src dest.size + x := by
  obtain ⟨m', e', w⟩ := zRawVecShift_correct m src.buf dest.buf src.size hs hd (by unfold Safe; omega) x
  exact ⟨m', e', w.2.1 _ e⟩

/-- C179 is violated: the same of the scalings and `zVecNormalize`, and reading beyond the end of a shorter operand by `zVecInterDiv` and `zVecMid`;
here the memory ends with the shorter vector. -/
theorem zVecUnchecked_violated :
    zVecScaleUniform ⟨0, 2⟩ 1 2 ⟨2, 1⟩ (Mem.ofList [3, 4, 0] : Mem ℚ) = .ub ∧
    zVecScale ⟨0, 2⟩ ⟨0, 2⟩ ⟨0, 2⟩ ⟨2, 1⟩ (Mem.ofList [3, 4, 0] : Mem ℚ) = .ub ∧
    zVecNormalize (fun _ => 5) (1/1000000000000) ⟨0, 2⟩ ⟨2, 1⟩ (Mem.ofList [3, 4, 0] : Mem ℚ) = .ub ∧
    zVecInterDiv ⟨2, 1⟩ ⟨2, 1⟩ 1 ⟨0, 2⟩ (Mem.ofList [3, 4, 0] : Mem ℚ) = .ub ∧
    zVecMid ⟨2, 1⟩ ⟨2, 1⟩ ⟨0, 2⟩ (Mem.ofList [3, 4, 0] : Mem ℚ) = .ub :=
  ⟨rfl, rfl, by
    show (if Misc.zIsTol (5 : ℚ) (1/1000000000000) = true then _ else _) = _
    rw [if_neg (by decide +kernel)]; rfl, rfl, rfl⟩

end unchecked

/-- C179: `zVecWSqrNorm` compares the sizes: 0 for a mismatch. -/
theorem zVecWSqrNorm_correct [CommRing K] (m : Mem K) (v w : VecRef) (hv : v.In m) (hw : w.In m) :
    zVecWSqrNorm v w m = .ok (if v.size = w.size then ∑ i ∈ Finset.range v.size, velem m w i * velem m v i ^ 2 else 0) := by
  unfold zVecWSqrNorm
  by_cases e : v.size = w.size
  · rw [if_neg (by simp [zVecSizeEqual, e]), if_pos e, zRawVecWSqrNorm_correct m v.buf w.buf v.size hv (by rw [e]; exact hw)]; rfl
  · rw [if_pos (by simp [zVecSizeEqual, e]), if_neg e]

/-- C179: `zVecDem` compares the sizes. -/
theorem zVecDem_checked [Field K] (m : Mem K) (v1 d v : VecRef) (h1 : v1.In m) (hd : d.In m) (hv : v.In m) (s1 : Safe v.buf v1.buf v.size)
    (sd : Safe v.buf d.buf v.size) :
    Guarded m (zVecDem v1 d v m) (v1.size = d.size ∧ v1.size = v.size) (VecIs m v fun i => velem m v1 i / velem m d i) := by
  refine guard (r := zRawVecDem v1.buf d.buf v.buf v.size m) ?_ ?_
  · simp only [zVecSizeEqual, Bool.or_eq_true, Bool.not_eq_true', beq_eq_false_iff_ne]; tauto
  rintro ⟨e1, e2⟩
  unfold VecRef.In at h1 hd hv
  obtain ⟨m', e', w⟩ := zRawVecDem_correct m v1.buf d.buf v.buf v.size (by omega) (by omega) hv s1 sd
  exact ⟨m', e', vecIs_of w⟩

/-! ## The hypotheses can be met -/

/-- Three 2×2 matrices and two vectors in a block, apart from one another. -/
example : (⟨0,2,2,2,2⟩ : MatRef).In (Mem.ofList (List.replicate 16 (1:ℤ))) ∧ (⟨8,2,2,2,2⟩ : MatRef).In (Mem.ofList (List.replicate 16 (1:ℤ))) ∧
    (⟨0,2,2,2,2⟩ : MatRef).Disj ⟨8,2,2,2,2⟩ ∧ (⟨12,2⟩ : VecRef).In (Mem.ofList (List.replicate 16 (1:ℤ))) ∧ (⟨0,2,2,2,2⟩ : MatRef).VDisj ⟨12,2⟩ ∧
    RawMat.VSep 14 2 12 2 := by
  simp [MatRef.In, MatRef.Disj, MatRef.VDisj, VecRef.In, Mem.ofList, RawMat.VSep]

/-- Exchange of rows 0 and 1, and the transpose times a vector. -/
example : ∃ h', zMatSwapRow ⟨0,2,2,2,2⟩ 0 1 (Mem.ofList [1, 2, 3, 4] : Mem ℤ) = .ok (h', true) ∧ (List.range 4).map h'.val = [3, 4, 1, 2] :=
  ⟨_, rfl, by decide +kernel⟩
example : ∃ h', zMulMatTVec ⟨0,2,2,2,2⟩ ⟨4,2⟩ ⟨6,2⟩ (Mem.ofList [1, 2, 3, 4, 1, 10, 0, 0] : Mem ℤ) = .ok (h', true) ∧ [h'.val 6, h'.val 7] = [31, 42] :=
  ⟨_, rfl, by decide +kernel⟩
/-- A search with a repeated greatest element. -/
example : ∃ b, zMatElemMax 2 2 (fun i j => if i + j = 1 then (5 : ℚ) else 1) = .ok (some b) ∧ (b.val, b.row, b.col) = (5, 0, 1) := ⟨_, rfl, by decide +kernel⟩
/-- A sum of which a vector of another size is left out. -/
example : ∃ m', zVecLinearSum ⟨0, 2⟩ [(2, ⟨2, 2⟩), (7, ⟨2, 1⟩), (3, ⟨4, 2⟩)] (Mem.ofList [9, 9, 1, 2, 10, 20] : Mem ℤ) = .ok m' ∧
    [m'.val 0, m'.val 1] = [32, 64] := ⟨_, rfl, by decide +kernel⟩
/-- A permutation. -/
example : ∀ k ∈ ([1, 2, 0] : List Int), 0 ≤ k ∧ k < ((⟨0, 3⟩ : VecRef).size : Int) := by decide

end Zm.Vec
