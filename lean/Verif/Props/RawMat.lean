import Verif.Base.Fn
import Verif.Model.RawMat
import Verif.Props.RawVec
import Mathlib.Logic.Equiv.Basic

/-! # C09–C13: raw matrix kernels and matrix functions -/

namespace Zm.RawMat
open Zm RawVec

variable {K : Type*}

/-! ## Specification -/

/-- The address `a` is that of no element of the `rows × cols` matrix at `base` with stride `cap`. -/
def Outside (base cap rows cols a : Nat) : Prop := ∀ i j, i < rows → j < cols → a ≠ base + i*cap + j

/-- All elements of the matrix lie inside memory. -/
def MatIn (h : Mem K) (base cap rows cols : Nat) : Prop := ∀ i j, i < rows → j < cols → base + i*cap + j < h.size

/-- `h'` is `h` with the elements of the matrix replaced by `f i j` and nothing else changed. -/
def WroteMat (h h' : Mem K) (base cap rows cols : Nat) (f : Nat → Nat → K) : Prop :=
  h'.size = h.size ∧ (∀ i j, i < rows → j < cols → h'.val (base + i*cap + j) = f i j) ∧
  (∀ a, Outside base cap rows cols a → h'.val a = h.val a)

/-- No element of the `rows × cols` source at `src` is an element of the destination. -/
def Sep (src scap srows scols dst dcap drows dcols : Nat) : Prop :=
  ∀ i j, i < srows → j < scols → Outside dst dcap drows dcols (src + i*scap + j)

/-- Source and destination are the same matrix, or have no element in common. -/
def Compat (src scap dst dcap rows cols : Nat) : Prop :=
  (src = dst ∧ scap = dcap) ∨ Sep src scap rows cols dst dcap rows cols

/-! ## Helper lemmas -/

/-- Contents by address of a matrix with contents `f`. -/
def byAddr (base cap : Nat) (f : Nat → Nat → K) (a : Nat) : K := f ((a - base)/cap) ((a - base) % cap)

theorem byAddr_eq (base cap : Nat) (f : Nat → Nat → K) {i j : Nat} (hj : j < cap) :
    byAddr base cap f (base + i*cap + j) = f i j := by
  have e : base + i*cap + j - base = j + cap * i := by rw [Nat.mul_comm cap i]; omega
  unfold byAddr
  rw [e, Nat.add_mul_div_left _ _ (by omega), Nat.add_mul_mod_self_left, Nat.div_eq_of_lt hj, Nat.mod_eq_of_lt hj]
  simp

theorem cell_inj {cap i j i' j' : Nat} (hj : j < cap) (hj' : j' < cap) (h : i*cap + j = i'*cap + j') :
    i = i' ∧ j = j' := by
  have e : ∀ i j, j < cap → (i*cap + j)/cap = i ∧ (i*cap + j) % cap = j := by
    intro i j hj
    rw [Nat.add_comm, Nat.mul_comm, Nat.add_mul_div_left _ _ (by omega), Nat.add_mul_mod_self_left,
      Nat.div_eq_of_lt hj, Nat.mod_eq_of_lt hj]
    simp
  have a := e i j hj
  have b := e i' j' hj'
  rw [h] at a
  exact ⟨a.1.symm.trans b.1, a.2.symm.trans b.2⟩

theorem wrote_of_upd {h h' : Mem K} {base cap rows cols : Nat} {f : Nat → Nat → K} {R : Set Nat} (hc : cols ≤ cap)
    (hR : ∀ a, a ∈ R ↔ ∃ i j, i < rows ∧ j < cols ∧ a = base + i*cap + j)
    (hu : Upd h h' R (byAddr base cap f)) : WroteMat h h' base cap rows cols f := by
  refine ⟨hu.1, ?_, ?_⟩
  · intro i j hi hj
    rw [hu.2.1 _ ((hR _).2 ⟨i, j, hi, hj, rfl⟩), byAddr_eq base cap f (by omega)]
  · intro a ha
    refine hu.2.2 a (fun h => ?_)
    obtain ⟨i, j, hi, hj, e⟩ := (hR a).1 h
    exact ha i j hi hj e

theorem upd_of_wrote {t t' : Mem K} {p n : Nat} {g : Nat → K} {F : Nat → K} (hw : Wrote t t' p n g)
    (hF : ∀ j, j < n → F (p+j) = g j) : Upd t t' {a | ∃ j, j < n ∧ a = p + j} F := by
  refine ⟨hw.1, ?_, ?_⟩
  · rintro a ⟨j, hj, rfl⟩
    rw [hw.2.1 j hj, hF j hj]
  · intro a ha
    refine hw.2.2 a ?_
    by_contra hcon
    exact ha ⟨a - p, by omega, by omega⟩

/-- Row engine: a loop whose `i`-th iteration writes row `i`. -/
theorem rows_wrote (h : Mem K) (base cap rows cols : Nat) (f : Nat → Nat → K) (hc : cols ≤ cap)
    (body : Nat → Mem K → Res (Mem K))
    (step : ∀ i t, i < rows → t.size = h.size → (∀ a, Outside base cap i cols a → t.val a = h.val a) →
      ∃ t', body i t = .ok t' ∧ Wrote t t' (base + i*cap) cols (f i)) :
    ∃ h', forUpM 0 rows body h = .ok h' ∧ WroteMat h h' base cap rows cols f := by
  obtain ⟨h', hh, hu⟩ := forUpM_upd rows body h (fun i => {a | ∃ j, j < cols ∧ a = base + i*cap + j})
    (byAddr base cap f) (by
      intro i t hi hu
      obtain ⟨t', ht, hw⟩ := step i t hi hu.1 (by
        intro a ha
        refine hu.2.2 a ?_
        rintro ⟨i', hi', j, hj, e⟩
        exact ha i' j hi' hj e)
      exact ⟨t', ht, upd_of_wrote hw (fun j hj => byAddr_eq base cap f (by omega))⟩)
  refine ⟨h', hh, wrote_of_upd hc ?_ hu⟩
  intro a
  simp only [Set.mem_ofPred_eq]
  constructor
  · rintro ⟨i, hi, j, hj, e⟩; exact ⟨i, j, hi, hj, e⟩
  · rintro ⟨i, j, hi, hj, e⟩; exact ⟨i, hi, j, hj, e⟩

/-- Column engine: a loop whose `j`-th iteration writes column `j`. -/
theorem cols_wrote (h : Mem K) (base cap rows cols : Nat) (f : Nat → Nat → K) (hc : cols ≤ cap)
    (body : Nat → Mem K → Res (Mem K))
    (step : ∀ j t, j < cols → t.size = h.size → (∀ a, Outside base cap rows j a → t.val a = h.val a) →
      ∃ t', body j t = .ok t' ∧ Upd t t' {a | ∃ i, i < rows ∧ a = base + i*cap + j} (byAddr base cap f)) :
    ∃ h', forUpM 0 cols body h = .ok h' ∧ WroteMat h h' base cap rows cols f := by
  obtain ⟨h', hh, hu⟩ := forUpM_upd cols body h (fun j => {a | ∃ i, i < rows ∧ a = base + i*cap + j})
    (byAddr base cap f) (by
      intro j t hj hu
      exact step j t hj hu.1 (by
        intro a ha
        refine hu.2.2 a ?_
        rintro ⟨j', hj', i, hi, e⟩
        exact ha i j' hi hj' e))
  refine ⟨h', hh, wrote_of_upd hc ?_ hu⟩
  intro a
  simp only [Set.mem_ofPred_eq]
  constructor
  · rintro ⟨j, hj, i, hi, e⟩; exact ⟨i, j, hi, hj, e⟩
  · rintro ⟨i, j, hi, hj, e⟩; exact ⟨j, hj, i, hi, e⟩

theorem Compat.outside {src scap dst dcap rows cols i j : Nat} (hc : Compat src scap dst dcap rows cols)
    (hcap : cols ≤ dcap) (hi : i < rows) (hj : j < cols) : Outside dst dcap i cols (src + i*scap + j) := by
  intro i' j' hi' hj' e
  rcases hc with ⟨rfl, rfl⟩ | hs
  · have := cell_inj (i := i) (i' := i') (j := j) (j' := j') (cap := scap) (by omega) (by omega) (by omega)
    omega
  · exact hs i j hi hj i' j' (by omega) hj' e

/-- A row of the source may be combined with the corresponding destination row. -/
theorem Compat.safe {src scap dst dcap rows cols i : Nat} (hc : Compat src scap dst dcap rows cols)
    (hi : i < rows) : Safe (dst + i*dcap) (src + i*scap) cols := by
  rcases hc with ⟨rfl, rfl⟩ | hs
  · exact Or.inl (Nat.le_refl _)
  · unfold Safe
    by_contra hcon
    have h1 : ¬ (dst + i*dcap ≤ src + i*scap) := fun h => hcon (Or.inl h)
    have h2 : ¬ (src + i*scap + cols ≤ dst + i*dcap) := fun h => hcon (Or.inr h)
    refine hs i (dst + i*dcap - (src + i*scap)) hi (by omega) i 0 hi (by omega) (by omega)

theorem Sep.disjoint {src scap dst dcap rows cols i : Nat} (hs : Sep src scap rows cols dst dcap rows cols)
    (hi : i < rows) : src + i*scap + cols ≤ dst + i*dcap ∨ dst + i*dcap + cols ≤ src + i*scap := by
  by_contra hcon
  simp only [not_or, not_le] at hcon
  by_cases h : src + i*scap ≤ dst + i*dcap
  · exact hs i (dst + i*dcap - (src + i*scap)) hi (by omega) i 0 hi (by omega) (by omega)
  · exact hs i 0 hi (by omega) i (src + i*scap - (dst + i*dcap)) hi (by omega) (by omega)

theorem row_in {h t : Mem K} {base cap rows cols i : Nat} (hin : MatIn h base cap rows cols) (hi : i < rows)
    (hsz : t.size = h.size) (hpos : 0 < cols) : base + i*cap + cols ≤ t.size := by
  have := hin i (cols-1) hi (by omega)
  omega

theorem wrote_zero (t : Mem K) (p : Nat) (g : Nat → K) : Wrote t t p 0 g := ⟨rfl, by simp, by simp⟩

/-- Element-wise row kernels with two sources. -/
theorem mat_map2 (op : K → K → K) (h : Mem K) (m1 cap1 m2 cap2 m cap rows cols : Nat) (hc : cols ≤ cap)
    (i1 : MatIn h m1 cap1 rows cols) (i2 : MatIn h m2 cap2 rows cols) (im : MatIn h m cap rows cols)
    (c1 : Compat m1 cap1 m cap rows cols) (c2 : Compat m2 cap2 m cap rows cols) :
    ∃ h', forUpM 0 rows (fun i h => map2 op (m1 + i*cap1) (m2 + i*cap2) (m + i*cap) cols h) h = .ok h' ∧
      WroteMat h h' m cap rows cols (fun i j => op (h.val (m1 + i*cap1 + j)) (h.val (m2 + i*cap2 + j))) := by
  refine rows_wrote h m cap rows cols _ hc _ ?_
  intro i t hi hsz hout
  rcases Nat.eq_zero_or_pos cols with rfl | hpos
  · exact ⟨t, by simp [map2, forUpM, forNM], wrote_zero _ _ _⟩
  obtain ⟨t', ht, hw⟩ := map2_wrote op (m1 + i*cap1) (m2 + i*cap2) (m + i*cap) cols t
    (row_in i1 hi hsz hpos) (row_in i2 hi hsz hpos) (row_in im hi hsz hpos) (c1.safe hi) (c2.safe hi)
  refine ⟨t', ht, hw.1, ?_, hw.2.2⟩
  intro j hj
  rw [hw.2.1 j hj]; beta_reduce
  rw [hout _ (c1.outside hc hi hj), hout _ (c2.outside hc hi hj)]

theorem mat_map1 (op : K → K) (h : Mem K) (m1 cap1 m cap rows cols : Nat) (hc : cols ≤ cap)
    (i1 : MatIn h m1 cap1 rows cols) (im : MatIn h m cap rows cols)
    (c1 : Compat m1 cap1 m cap rows cols) :
    ∃ h', forUpM 0 rows (fun i h => map1 op (m1 + i*cap1) (m + i*cap) cols h) h = .ok h' ∧
      WroteMat h h' m cap rows cols (fun i j => op (h.val (m1 + i*cap1 + j))) := by
  refine rows_wrote h m cap rows cols _ hc _ ?_
  intro i t hi hsz hout
  rcases Nat.eq_zero_or_pos cols with rfl | hpos
  · exact ⟨t, by simp [map1, forUpM, forNM], wrote_zero _ _ _⟩
  obtain ⟨t', ht, hw⟩ := map1_wrote op (m1 + i*cap1) (m + i*cap) cols t
    (row_in i1 hi hsz hpos) (row_in im hi hsz hpos) (c1.safe hi)
  refine ⟨t', ht, hw.1, ?_, hw.2.2⟩
  intro j hj
  rw [hw.2.1 j hj]; beta_reduce
  rw [hout _ (c1.outside hc hi hj)]

theorem mat_copy (h : Mem K) (src scap dest dcap rows cols : Nat) (hc : cols ≤ dcap)
    (i1 : MatIn h src scap rows cols) (im : MatIn h dest dcap rows cols)
    (hs : Sep src scap rows cols dest dcap rows cols) :
    ∃ h', forUpM 0 rows (fun i h => zRawVecCopy (src + i*scap) (dest + i*dcap) cols h) h = .ok h' ∧
      WroteMat h h' dest dcap rows cols (fun i j => h.val (src + i*scap + j)) := by
  refine rows_wrote h dest dcap rows cols _ hc _ ?_
  intro i t hi hsz hout
  rcases Nat.eq_zero_or_pos cols with rfl | hpos
  · exact ⟨t, by simp [zRawVecCopy, map1, forUpM, forNM], wrote_zero _ _ _⟩
  obtain ⟨t', ht, hw⟩ := zRawVecCopy_correct t (src + i*scap) (dest + i*dcap) cols
    (row_in i1 hi hsz hpos) (row_in im hi hsz hpos) (hs.disjoint hi)
  refine ⟨t', ht, hw.1, ?_, hw.2.2⟩
  intro j hj
  rw [hw.2.1 j hj]; beta_reduce
  rw [hout _ (Compat.outside (Or.inr hs) hc hi hj)]

/-! ## C10: element-wise kernels, sub-matrices, rows, columns -/

section elementwise
variable (h : Mem K) (m1 cap1 m2 cap2 m cap rows cols : Nat) (hc : cols ≤ cap)
    (i1 : MatIn h m1 cap1 rows cols) (i2 : MatIn h m2 cap2 rows cols) (im : MatIn h m cap rows cols)
    (c1 : Compat m1 cap1 m cap rows cols) (c2 : Compat m2 cap2 m cap rows cols)
include hc i1 im c1

/-- **C10** `zRawMatRev`. -/
theorem zRawMatRev_correct [Neg K] : ∃ h', zRawMatRev m1 cap1 m cap rows cols h = .ok h' ∧
    WroteMat h h' m cap rows cols (fun i j => -h.val (m1 + i*cap1 + j)) :=
  mat_map1 _ h m1 cap1 m cap rows cols hc i1 im c1
/-- **C10** `zRawMatMul`. -/
theorem zRawMatMul_correct [Mul K] (k : K) : ∃ h', zRawMatMul m1 cap1 k m cap rows cols h = .ok h' ∧
    WroteMat h h' m cap rows cols (fun i j => h.val (m1 + i*cap1 + j) * k) :=
  mat_map1 _ h m1 cap1 m cap rows cols hc i1 im c1
/-- **C10** `zRawMatDiv`. -/
theorem zRawMatDiv_correct [Field K] (k : K) : ∃ h', zRawMatDiv m1 cap1 k m cap rows cols h = .ok h' ∧
    WroteMat h h' m cap rows cols (fun i j => h.val (m1 + i*cap1 + j) / k) := by
  obtain ⟨h', e, hw⟩ := zRawMatMul_correct h m1 cap1 m cap rows cols hc i1 im c1 (1/k)
  exact ⟨h', e, by simpa [div_eq_mul_inv] using hw⟩
include i2 c2

/-- **C10** `zRawMatAdd`. -/
theorem zRawMatAdd_correct [Add K] : ∃ h', zRawMatAdd m1 cap1 m2 cap2 m cap rows cols h = .ok h' ∧
    WroteMat h h' m cap rows cols (fun i j => h.val (m1 + i*cap1 + j) + h.val (m2 + i*cap2 + j)) :=
  mat_map2 _ h m1 cap1 m2 cap2 m cap rows cols hc i1 i2 im c1 c2
/-- **C10** `zRawMatSub`. -/
theorem zRawMatSub_correct [Sub K] : ∃ h', zRawMatSub m1 cap1 m2 cap2 m cap rows cols h = .ok h' ∧
    WroteMat h h' m cap rows cols (fun i j => h.val (m1 + i*cap1 + j) - h.val (m2 + i*cap2 + j)) :=
  mat_map2 _ h m1 cap1 m2 cap2 m cap rows cols hc i1 i2 im c1 c2
/-- **C10** `zRawMatCat`. -/
theorem zRawMatCat_correct [Add K] [Mul K] (k : K) : ∃ h', zRawMatCat m1 cap1 k m2 cap2 m cap rows cols h = .ok h' ∧
    WroteMat h h' m cap rows cols (fun i j => h.val (m1 + i*cap1 + j) + h.val (m2 + i*cap2 + j) * k) :=
  mat_map2 _ h m1 cap1 m2 cap2 m cap rows cols hc i1 i2 im c1 c2
end elementwise

section direct
variable (h : Mem K) (m cap m2 cap2 rows cols : Nat) (hc : cols ≤ cap)
    (im : MatIn h m cap rows cols) (i2 : MatIn h m2 cap2 rows cols) (c2 : Compat m2 cap2 m cap rows cols)
include hc im
/-- **C10** `zRawMatMulDRC`. -/
theorem zRawMatMulDRC_correct [Mul K] (k : K) : ∃ h', zRawMatMulDRC m cap k rows cols h = .ok h' ∧
    WroteMat h h' m cap rows cols (fun i j => h.val (m + i*cap + j) * k) :=
  mat_map1 _ h m cap m cap rows cols hc im im (Or.inl ⟨rfl, rfl⟩)
include i2 c2
/-- **C10** `zRawMatAddDRC`. -/
theorem zRawMatAddDRC_correct [Add K] : ∃ h', zRawMatAddDRC m cap m2 cap2 rows cols h = .ok h' ∧
    WroteMat h h' m cap rows cols (fun i j => h.val (m + i*cap + j) + h.val (m2 + i*cap2 + j)) :=
  mat_map2 _ h m cap m2 cap2 m cap rows cols hc im i2 im (Or.inl ⟨rfl, rfl⟩) c2
/-- **C10** `zRawMatSubDRC`. -/
theorem zRawMatSubDRC_correct [Sub K] : ∃ h', zRawMatSubDRC m cap m2 cap2 rows cols h = .ok h' ∧
    WroteMat h h' m cap rows cols (fun i j => h.val (m + i*cap + j) - h.val (m2 + i*cap2 + j)) :=
  mat_map2 _ h m cap m2 cap2 m cap rows cols hc im i2 im (Or.inl ⟨rfl, rfl⟩) c2
/-- **C10** `zRawMatCatDRC`. -/
theorem zRawMatCatDRC_correct [Add K] [Mul K] (k : K) : ∃ h', zRawMatCatDRC m cap k m2 cap2 rows cols h = .ok h' ∧
    WroteMat h h' m cap rows cols (fun i j => h.val (m + i*cap + j) + h.val (m2 + i*cap2 + j) * k) :=
  mat_map2 _ h m cap m2 cap2 m cap rows cols hc im i2 im (Or.inl ⟨rfl, rfl⟩) c2
end direct

/-- **C10** `zRawMatCopy`. -/
theorem zRawMatCopy_correct (h : Mem K) (src scap dest dcap rows cols : Nat) (hc : cols ≤ dcap)
    (i1 : MatIn h src scap rows cols) (im : MatIn h dest dcap rows cols)
    (hs : Sep src scap rows cols dest dcap rows cols) :
    ∃ h', zRawMatCopy src scap dest dcap rows cols h = .ok h' ∧
      WroteMat h h' dest dcap rows cols (fun i j => h.val (src + i*scap + j)) :=
  mat_copy h src scap dest dcap rows cols hc i1 im hs

/-- Effective extent after the clamp of `zRawMatGet`/`zRawMatPut`: what fits between position and end. -/
theorem clamp_eq (r d s : Nat) : (if r + d > s then s - r else d) = min d (s - r) := by
  split <;> omega

theorem clampI_eq (r d s : Nat) (hr : r ≤ s) : (if r + d > s then (s : Int) - r else (d : Int)) = ((min d (s - r) : Nat) : Int) := by
  split <;> omega

/-- **C10** `zRawMatGet`: copies exactly the block at `(r,c)`, clipped to the source, whatever the strides. -/
theorem zRawMatGet_correct (h : Mem K) (src scap srows scols r c dest dcap drows dcols : Nat)
    (hcs : c ≤ scols) (hc : dcols ≤ dcap)
    (i1 : MatIn h src scap srows scols) (im : MatIn h dest dcap drows dcols)
    (hs : Sep src scap srows scols dest dcap drows dcols) :
    ∃ h', zRawMatGet src scap srows scols r c dest dcap drows dcols h = .ok h' ∧
      WroteMat h h' dest dcap (min drows (srows - r)) (min dcols (scols - c))
        (fun i j => h.val (src + (r+i)*scap + (c+j))) := by
  unfold zRawMatGet
  rw [clamp_eq r drows srows, clampI_eq c dcols scols hcs]
  have e : ∀ i j, src + r*scap + c + i*scap + j = src + (r+i)*scap + (c+j) := by
    intro i j; rw [Nat.add_mul]; omega
  have := mat_copy h (src + r*scap + c) scap dest dcap (min drows (srows - r)) (min dcols (scols - c)) (by omega)
    (by intro i j hi hj; rw [e]; exact i1 (r+i) (c+j) (by omega) (by omega))
    (by intro i j hi hj; exact im i j (by omega) (by omega))
    (by
      intro i j hi hj i' j' hi' hj'
      rw [e]; exact hs (r+i) (c+j) (by omega) (by omega) i' j' (by omega) (by omega))
  simpa only [e] using this

/-- **C10** `zRawMatPut`: writes exactly the block at `(r,c)`, clipped to the destination. -/
theorem zRawMatPut_correct (h : Mem K) (dest dcap drows dcols r c src scap srows scols : Nat)
    (hcs : c ≤ dcols) (hc : dcols ≤ dcap)
    (i1 : MatIn h src scap srows scols) (im : MatIn h dest dcap drows dcols)
    (hs : Sep src scap srows scols dest dcap drows dcols) :
    ∃ h', zRawMatPut dest dcap drows dcols r c src scap srows scols h = .ok h' ∧
      WroteMat h h' (dest + r*dcap + c) dcap (min srows (drows - r)) (min scols (dcols - c))
        (fun i j => h.val (src + i*scap + j)) := by
  unfold zRawMatPut
  rw [clamp_eq r srows drows, clampI_eq c scols dcols hcs]
  have e : ∀ i j, dest + r*dcap + c + i*dcap + j = dest + (r+i)*dcap + (c+j) := by
    intro i j; rw [Nat.add_mul]; omega
  exact mat_copy h src scap (dest + r*dcap + c) dcap (min srows (drows - r)) (min scols (dcols - c)) (by omega)
    (by intro i j hi hj; exact i1 i j (by omega) (by omega))
    (by intro i j hi hj; rw [e]; exact im (r+i) (c+j) (by omega) (by omega))
    (by
      intro i j hi hj i' j' hi' hj'
      rw [e]; exact hs i j (by omega) (by omega) (r+i') (c+j') (by omega) (by omega))

/-- **C10** the clipping does not cover a block that begins to the right of the matrix: the clipped number of columns
is negative and the copy of the first row is undefined. -/
theorem zRawMatGet_right_violated (h : Mem K) (src scap srows scols r c dest dcap drows dcols : Nat) (hr : r < srows)
    (hd : 0 < drows) (hcs : scols < c) : zRawMatGet src scap srows scols r c dest dcap drows dcols h = .ub := by
  unfold zRawMatGet
  rw [clamp_eq r drows srows, if_pos (by omega)]
  obtain ⟨n, hn⟩ : ∃ n, min drows (srows - r) = n + 1 := ⟨min drows (srows - r) - 1, by omega⟩
  simp only [hn]
  rw [forUpM_cons (by omega), zRawVecCopy, if_pos (by omega)]
  rfl

/-- **C10** the same for the block that is written. -/
theorem zRawMatPut_right_violated (h : Mem K) (dest dcap drows dcols r c src scap srows scols : Nat) (hr : r < drows)
    (hd : 0 < srows) (hcs : dcols < c) : zRawMatPut dest dcap drows dcols r c src scap srows scols h = .ub := by
  unfold zRawMatPut
  rw [clamp_eq r srows drows, if_pos (by omega)]
  obtain ⟨n, hn⟩ : ∃ n, min srows (drows - r) = n + 1 := ⟨min srows (drows - r) - 1, by omega⟩
  simp only [hn]
  rw [forUpM_cons (by omega), zRawVecCopy, if_pos (by omega)]
  rfl

/-- Strided column read into contiguous memory. -/
theorem zRawMatGetCol_correct (h : Mem K) (m cap rows col colvec : Nat)
    (i1 : ∀ i, i < rows → m + col + i*cap < h.size) (iv : colvec + rows ≤ h.size)
    (hs : ∀ i, i < rows → m + col + i*cap < colvec ∨ colvec + rows ≤ m + col + i*cap) :
    ∃ h', zRawMatGetCol m cap rows col colvec h = .ok h' ∧
      Wrote h h' colvec rows (fun i => h.val (m + col + i*cap)) := by
  unfold zRawMatGetCol
  obtain ⟨h', hh, hsz, hw, hf⟩ := forUpM_ok (lo := 0) (hi := rows)
    (fun i (h : Mem K) => do h.wr (colvec+i) (← h.rd (m+col+i*cap))) h
    (fun k (t : Mem K) => t.size = h.size ∧ (∀ i, i < k → t.val (colvec+i) = h.val (m+col+i*cap)) ∧
      (∀ a, a < colvec ∨ colvec + k ≤ a → t.val a = h.val a)) (Nat.zero_le _) ⟨rfl, by simp, by simp⟩
    (by
      rintro k t - hk ⟨hsz, hw, hf⟩
      have hr : t.val (m+col+k*cap) = h.val (m+col+k*cap) := hf _ (by have := hs k hk; omega)
      refine ⟨⟨t.size, fun j => if j = colvec+k then h.val (m+col+k*cap) else t.val j⟩, ?_, hsz, ?_, ?_⟩
      · simp [Mem.rd_ok t (show m+col+k*cap < t.size by have := i1 k hk; omega),
          Mem.wr_ok t _ (show colvec+k < t.size by omega), hr]
      · intro i hi
        by_cases hik : i = k
        · subst hik; simp
        · simp only; rw [if_neg (by omega), hw i (by omega)]
      · intro a ha
        simp only; rw [if_neg (by omega), hf a (by omega)])
  exact ⟨h', hh, hsz, hw, hf⟩

/-- Strided column write. -/
theorem putCol_upd (h : Mem K) (m cap rows col colvec : Nat) (F : Nat → K)
    (i1 : ∀ i, i < rows → m + col + i*cap < h.size) (iv : ∀ i, i < rows → colvec + i < h.size)
    (hs : ∀ i i', i < rows → i' < rows → colvec + i ≠ m + col + i'*cap)
    (hF : ∀ i, i < rows → F (m + col + i*cap) = h.val (colvec + i)) :
    ∃ h', zRawMatPutCol m cap rows col colvec h = .ok h' ∧ Upd h h' {a | ∃ i, i < rows ∧ a = m + col + i*cap} F := by
  unfold zRawMatPutCol
  obtain ⟨h', hh, hu⟩ := forUpM_upd rows (fun i (h : Mem K) => do h.wr (m+col+i*cap) (← h.rd (colvec+i))) h
    (fun i => {m + col + i*cap}) F (by
      intro i t hi hu
      have hr : t.val (colvec+i) = h.val (colvec+i) := hu.2.2 _ (by
        rintro ⟨i', hi', e⟩
        simp only [Set.mem_singleton_iff] at e
        exact hs i i' hi (by omega) e)
      obtain ⟨t', ht, hut⟩ := wr_upd t (a := m+col+i*cap) (h.val (colvec+i)) (by rw [hu.1]; exact i1 i hi) F (hF i hi)
      refine ⟨t', ?_, hut⟩
      simp [Mem.rd_ok t (show colvec + i < t.size by rw [hu.1]; exact iv i hi), hr, ht])
  exact ⟨h', hh, hu.congr (by ext a; simp) (fun _ _ => rfl)⟩

/-- **C10** `zRawMatPutCol`: writes exactly column `col`. -/
theorem zRawMatPutCol_correct (h : Mem K) (m cap rows cols col colvec : Nat) (hcol : col < cols) (hc : cols ≤ cap)
    (im : MatIn h m cap rows cols) (iv : colvec + rows ≤ h.size)
    (hs : ∀ i, i < rows → Outside m cap rows cols (colvec + i)) :
    ∃ h', zRawMatPutCol m cap rows col colvec h = .ok h' ∧ h'.size = h.size ∧
      (∀ i, i < rows → h'.val (m + i*cap + col) = h.val (colvec + i)) ∧
      (∀ a, (∀ i, i < rows → a ≠ m + i*cap + col) → h'.val a = h.val a) := by
  obtain ⟨h', hh, hu⟩ := putCol_upd h m cap rows col colvec (byAddr m cap (fun i _ => h.val (colvec + i)))
    (by intro i hi; have := im i col hi hcol; omega) (by intro i hi; omega)
    (by intro i i' hi hi' e; exact hs i hi i' col hi' hcol (by omega))
    (by intro i hi; rw [show m + col + i*cap = m + i*cap + col by omega, byAddr_eq _ _ _ (by omega)])
  refine ⟨h', hh, hu.1, ?_, ?_⟩
  · intro i hi
    rw [hu.2.1 _ ⟨i, hi, by omega⟩, byAddr_eq _ _ _ (by omega)]
  · intro a ha
    refine hu.2.2 a ?_
    rintro ⟨i, hi, e⟩
    exact ha i hi (by omega)

/-- **C10** `zRawMatGetRow`. -/
theorem zRawMatGetRow_correct (h : Mem K) (m cap rows cols row rowvec : Nat) (hrow : row < rows)
    (im : MatIn h m cap rows cols) (iv : rowvec + cols ≤ h.size)
    (hs : ∀ j, j < cols → Outside m cap rows cols (rowvec + j)) :
    ∃ h', zRawMatGetRow m cap cols row rowvec h = .ok h' ∧
      Wrote h h' rowvec cols (fun j => h.val (m + row*cap + j)) := by
  rcases Nat.eq_zero_or_pos cols with rfl | hpos
  · exact ⟨h, by simp [zRawMatGetRow, zRawVecCopy, map1, forUpM, forNM], wrote_zero _ _ _⟩
  refine zRawVecCopy_correct h _ _ _ (row_in im hrow rfl hpos) iv ?_
  by_contra hcon
  simp only [not_or, not_le] at hcon
  by_cases hle : m + row*cap ≤ rowvec
  · exact hs 0 hpos row (rowvec - (m + row*cap)) hrow (by omega) (by omega)
  · exact hs (m + row*cap - rowvec) (by omega) row 0 hrow (by omega) (by omega)

/-- **C10** `zRawMatPutRow`. -/
theorem zRawMatPutRow_correct (h : Mem K) (m cap rows cols row rowvec : Nat) (hrow : row < rows)
    (im : MatIn h m cap rows cols) (iv : rowvec + cols ≤ h.size)
    (hs : ∀ j, j < cols → Outside m cap rows cols (rowvec + j)) :
    ∃ h', zRawMatPutRow m cap cols row rowvec h = .ok h' ∧
      Wrote h h' (m + row*cap) cols (fun j => h.val (rowvec + j)) := by
  rcases Nat.eq_zero_or_pos cols with rfl | hpos
  · exact ⟨h, by simp [zRawMatPutRow, zRawVecCopy, map1, forUpM, forNM], wrote_zero _ _ _⟩
  refine zRawVecCopy_correct h _ _ _ iv (row_in im hrow rfl hpos) ?_
  by_contra hcon
  simp only [not_or, not_le] at hcon
  by_cases hle : m + row*cap ≤ rowvec
  · exact hs 0 hpos row (rowvec - (m + row*cap)) hrow (by omega) (by omega)
  · exact hs (m + row*cap - rowvec) (by omega) row 0 hrow (by omega) (by omega)

/-- **C10** `zRawMatSwapRow`: rows `r1` and `r2` change places, every other cell of memory is unchanged. -/
theorem zRawMatSwapRow_correct (h : Mem K) (m cap rows cols r1 r2 : Nat) (hc : cols ≤ cap)
    (im : MatIn h m cap rows cols) (h1 : r1 < rows) (h2 : r2 < rows) :
    ∃ h', zRawMatSwapRow m cap cols r1 r2 h = .ok h' ∧
      WroteMat h h' m cap rows cols (fun i j => h.val (m + (Equiv.swap r1 r2 i)*cap + j)) := by
  unfold zRawMatSwapRow
  obtain ⟨h', hh, hu⟩ := forUpM_upd cols (fun j (h : Mem K) => do
      let tmp ← h.rd (m + r1*cap + j)
      let h ← h.wr (m + r1*cap + j) (← h.rd (m + r2*cap + j))
      h.wr (m + r2*cap + j) tmp) h
    (fun j => {m + r1*cap + j} ∪ {m + r2*cap + j})
    (byAddr m cap (fun i j => h.val (m + (Equiv.swap r1 r2 i)*cap + j))) (by
      intro j t hj hu
      have out : ∀ r, t.val (m + r*cap + j) = h.val (m + r*cap + j) := by
        intro r
        refine hu.2.2 _ ?_
        rintro ⟨j', hj', e⟩
        simp only [Set.mem_union, Set.mem_singleton_iff] at e
        rcases e with e | e <;>
        · have := cell_inj (cap := cap) (i := r) (j := j) (j' := j') (by omega) (by omega)
            (Nat.add_left_cancel (n := m) (by rw [← Nat.add_assoc, e, Nat.add_assoc]))
          omega
      have s1 : m + r1*cap + j < t.size := by rw [hu.1]; exact im r1 j h1 hj
      have s2 : m + r2*cap + j < t.size := by rw [hu.1]; exact im r2 j h2 hj
      obtain ⟨t1, ht1, hu1⟩ := wr_upd t (h.val (m + r2*cap + j)) s1
        (byAddr m cap (fun i j => h.val (m + (Equiv.swap r1 r2 i)*cap + j)))
        (by rw [byAddr_eq _ _ _ (by omega)]; simp)
      obtain ⟨t2, ht2, hu2⟩ := wr_upd t1 (h.val (m + r1*cap + j)) (a := m + r2*cap + j) (by rw [hu1.1]; exact s2)
        (byAddr m cap (fun i j => h.val (m + (Equiv.swap r1 r2 i)*cap + j)))
        (by rw [byAddr_eq _ _ _ (by omega)]; simp)
      refine ⟨t2, ?_, hu1.trans hu2⟩
      simp [Mem.rd_ok t s1, Mem.rd_ok t s2, out, ht1, ht2])
  refine ⟨h', hh, hu.1, ?_, ?_⟩
  · intro i j hi hj
    by_cases e1 : i = r1
    · subst e1
      rw [hu.2.1 _ ⟨j, hj, Or.inl rfl⟩, byAddr_eq _ _ _ (by omega)]
    · by_cases e2 : i = r2
      · subst e2
        rw [hu.2.1 _ ⟨j, hj, Or.inr rfl⟩, byAddr_eq _ _ _ (by omega)]
      · beta_reduce; rw [Equiv.swap_apply_of_ne_of_ne e1 e2]
        refine hu.2.2 _ ?_
        rintro ⟨j', hj', e⟩
        simp only [Set.mem_union, Set.mem_singleton_iff] at e
        rcases e with e | e
        · exact e1 (cell_inj (cap := cap) (j := j) (j' := j') (by omega) (by omega) (by omega)).1
        · exact e2 (cell_inj (cap := cap) (j := j) (j' := j') (by omega) (by omega) (by omega)).1
  · intro a ha
    refine hu.2.2 a ?_
    rintro ⟨j, hj, e⟩
    simp only [Set.mem_union, Set.mem_singleton_iff] at e
    rcases e with e | e
    · exact ha r1 j h1 hj e
    · exact ha r2 j h2 hj e

/-- **C10** `zRawMatSwapCol`. -/
theorem zRawMatSwapCol_correct (h : Mem K) (m cap rows cols c1 c2 : Nat) (hc : cols ≤ cap)
    (im : MatIn h m cap rows cols) (h1 : c1 < cols) (h2 : c2 < cols) :
    ∃ h', zRawMatSwapCol m cap rows c1 c2 h = .ok h' ∧
      WroteMat h h' m cap rows cols (fun i j => h.val (m + i*cap + Equiv.swap c1 c2 j)) := by
  unfold zRawMatSwapCol
  obtain ⟨h', hh, hu⟩ := forUpM_upd rows (fun i (h : Mem K) => do
      let tmp ← h.rd (m + i*cap + c1)
      let h ← h.wr (m + i*cap + c1) (← h.rd (m + i*cap + c2))
      h.wr (m + i*cap + c2) tmp) h
    (fun i => {m + i*cap + c1} ∪ {m + i*cap + c2})
    (byAddr m cap (fun i j => h.val (m + i*cap + Equiv.swap c1 c2 j))) (by
      intro i t hi hu
      have out : ∀ c, c < cols → t.val (m + i*cap + c) = h.val (m + i*cap + c) := by
        intro c hcc
        refine hu.2.2 _ ?_
        rintro ⟨i', hi', e⟩
        simp only [Set.mem_union, Set.mem_singleton_iff] at e
        rcases e with e | e
        · have := cell_inj (cap := cap) (i := i) (i' := i') (j := c) (j' := c1) (by omega) (by omega) (by omega)
          omega
        · have := cell_inj (cap := cap) (i := i) (i' := i') (j := c) (j' := c2) (by omega) (by omega) (by omega)
          omega
      have s1 : m + i*cap + c1 < t.size := by rw [hu.1]; exact im i c1 hi h1
      have s2 : m + i*cap + c2 < t.size := by rw [hu.1]; exact im i c2 hi h2
      obtain ⟨t1, ht1, hu1⟩ := wr_upd t (h.val (m + i*cap + c2)) s1
        (byAddr m cap (fun i j => h.val (m + i*cap + Equiv.swap c1 c2 j)))
        (by rw [byAddr_eq _ _ _ (by omega)]; simp)
      obtain ⟨t2, ht2, hu2⟩ := wr_upd t1 (h.val (m + i*cap + c1)) (a := m + i*cap + c2) (by rw [hu1.1]; exact s2)
        (byAddr m cap (fun i j => h.val (m + i*cap + Equiv.swap c1 c2 j)))
        (by rw [byAddr_eq _ _ _ (by omega)]; simp)
      refine ⟨t2, ?_, hu1.trans hu2⟩
      simp [Mem.rd_ok t s1, Mem.rd_ok t s2, out c1 h1, out c2 h2, ht1, ht2])
  refine ⟨h', hh, hu.1, ?_, ?_⟩
  · intro i j hi hj
    by_cases e1 : j = c1
    · subst e1
      rw [hu.2.1 _ ⟨i, hi, Or.inl rfl⟩, byAddr_eq _ _ _ (by omega)]
    · by_cases e2 : j = c2
      · subst e2
        rw [hu.2.1 _ ⟨i, hi, Or.inr rfl⟩, byAddr_eq _ _ _ (by omega)]
      · beta_reduce; rw [Equiv.swap_apply_of_ne_of_ne e1 e2]
        refine hu.2.2 _ ?_
        rintro ⟨i', hi', e⟩
        simp only [Set.mem_union, Set.mem_singleton_iff] at e
        rcases e with e | e
        · exact e1 (cell_inj (cap := cap) (i := i) (i' := i') (by omega) (by omega) (by omega)).2
        · exact e2 (cell_inj (cap := cap) (i := i) (i' := i') (by omega) (by omega) (by omega)).2
  · intro a ha
    refine hu.2.2 a ?_
    rintro ⟨i, hi, e⟩
    simp only [Set.mem_union, Set.mem_singleton_iff] at e
    rcases e with e | e
    · exact ha i c1 hi h1 e
    · exact ha i c2 hi h2 e

/-- Transposing gather shared by `zRawMatT` and `zRawMatTGet`. -/
theorem tget_core (h : Mem K) (src scap dest dcap drows dcols : Nat) (hc : dcols ≤ dcap)
    (i1 : MatIn h src scap dcols drows) (im : MatIn h dest dcap drows dcols)
    (hs : Sep src scap dcols drows dest dcap drows dcols) :
    ∃ h', forUpM 0 drows (fun i h => zRawMatGetCol (src + i) scap dcols 0 (dest + i*dcap) h) h = .ok h' ∧
      WroteMat h h' dest dcap drows dcols (fun i j => h.val (src + j*scap + i)) := by
  refine rows_wrote h dest dcap drows dcols _ hc _ ?_
  intro i t hi hsz hout
  rcases Nat.eq_zero_or_pos dcols with rfl | hpos
  · exact ⟨t, by simp [zRawMatGetCol, forUpM, forNM], wrote_zero _ _ _⟩
  obtain ⟨t', ht, hw⟩ := zRawMatGetCol_correct t (src + i) scap dcols 0 (dest + i*dcap)
    (by intro j hj; have := i1 j i hj hi; omega) (row_in im hi hsz hpos)
    (by
      intro j hj
      by_contra hcon
      simp only [not_or, not_le, not_lt] at hcon
      exact hs j i hj hi i (src + i + 0 + j*scap - (dest + i*dcap)) hi (by omega) (by omega))
  refine ⟨t', ht, hw.1, ?_, hw.2.2⟩
  intro j hj
  rw [hw.2.1 j hj]; beta_reduce
  rw [show src + i + 0 + j*scap = src + j*scap + i by omega,
    hout _ (fun i' j' hi' hj' => hs j i hj hi i' j' (by omega) hj')]

/-- **C10** `zRawMatT`: out-of-place transposition. -/
theorem zRawMatT_correct (h : Mem K) (m cap tm tcap rows cols : Nat) (hc : rows ≤ tcap)
    (i1 : MatIn h m cap rows cols) (im : MatIn h tm tcap cols rows)
    (hs : Sep m cap rows cols tm tcap cols rows) :
    ∃ h', zRawMatT m cap tm tcap rows cols h = .ok h' ∧
      WroteMat h h' tm tcap cols rows (fun i j => h.val (m + j*cap + i)) :=
  tget_core h m cap tm tcap cols rows hc i1 im hs

/-- **C10** `zRawMatTGet`: the transpose of the block at `(r,c)`. -/
theorem zRawMatTGet_correct (h : Mem K) (src scap srows scols r c dest dcap drows dcols : Nat)
    (hc : dcols ≤ dcap)
    (i1 : MatIn h src scap srows scols) (im : MatIn h dest dcap drows dcols)
    (hs : Sep src scap srows scols dest dcap drows dcols) :
    ∃ h', zRawMatTGet src scap srows scols r c dest dcap drows dcols h = .ok h' ∧
      WroteMat h h' dest dcap (min drows (scols - c)) (min dcols (srows - r))
        (fun i j => h.val (src + (r+j)*scap + (c+i))) := by
  unfold zRawMatTGet
  rw [clamp_eq r dcols srows, clamp_eq c drows scols]
  have e : ∀ i j, src + r*scap + c + j*scap + i = src + (r+j)*scap + (c+i) := by
    intro i j; rw [Nat.add_mul]; omega
  have := tget_core h (src + r*scap + c) scap dest dcap (min drows (scols - c)) (min dcols (srows - r)) (by omega)
    (by intro i j hi hj; rw [e]; exact i1 (r+i) (c+j) (by omega) (by omega))
    (by intro i j hi hj; exact im i j (by omega) (by omega))
    (by
      intro i j hi hj i' j' hi' hj'
      rw [e]; exact hs (r+i) (c+j) (by omega) (by omega) i' j' (by omega) (by omega))
  simpa only [e] using this

/-- **C10** `zRawMatTPut`: writes the transpose of the source at `(r,c)`. -/
theorem zRawMatTPut_correct (h : Mem K) (dest dcap drows dcols r c src scap srows scols : Nat)
    (hc : dcols ≤ dcap)
    (i1 : MatIn h src scap srows scols) (im : MatIn h dest dcap drows dcols)
    (hs : Sep src scap srows scols dest dcap drows dcols) :
    ∃ h', zRawMatTPut dest dcap drows dcols r c src scap srows scols h = .ok h' ∧
      WroteMat h h' (dest + r*dcap + c) dcap (min scols (drows - r)) (min srows (dcols - c))
        (fun i j => h.val (src + j*scap + i)) := by
  unfold zRawMatTPut
  rw [clamp_eq r scols drows, clamp_eq c srows dcols]
  have e : ∀ i j, dest + r*dcap + c + i*dcap + j = dest + (r+i)*dcap + (c+j) := by
    intro i j; rw [Nat.add_mul]; omega
  refine cols_wrote h (dest + r*dcap + c) dcap _ _ _ (by omega) _ ?_
  intro j t hj hsz hout
  obtain ⟨t', ht, hu⟩ := putCol_upd t (dest + r*dcap + c + j) dcap (min scols (drows - r)) 0 (src + j*scap)
    (byAddr (dest + r*dcap + c) dcap (fun i j => h.val (src + j*scap + i)))
    (by
      intro i hi
      rw [hsz, show dest + r*dcap + c + j + 0 + i*dcap = dest + r*dcap + c + i*dcap + j by omega, e]
      exact im _ _ (by omega) (by omega))
    (by intro i hi; rw [hsz]; exact i1 j i (by omega) (by omega))
    (by
      intro i i' hi hi' e'
      rw [show dest + r*dcap + c + j + 0 + i'*dcap = dest + r*dcap + c + i'*dcap + j by omega, e] at e'
      exact hs j i (by omega) (by omega) (r+i') (c+j) (by omega) (by omega) e')
    (by
      intro i hi
      rw [show dest + r*dcap + c + j + 0 + i*dcap = dest + r*dcap + c + i*dcap + j by omega,
        byAddr_eq _ _ _ (by omega), hout]
      intro i' j' hi' hj'
      rw [e]; exact hs j i (by omega) (by omega) (r+i') (c+j') (by omega) (by omega))
  refine ⟨t', ht, hu.congr ?_ (fun _ _ => rfl)⟩
  ext a
  simp only [Set.mem_ofPred_eq]
  constructor <;> (rintro ⟨i, hi, e'⟩; exact ⟨i, hi, by omega⟩)

/-- **C10** put followed by get returns the block that was put. -/
theorem zRawMat_put_get (h : Mem K) (dest dcap drows dcols r c src scap rows cols out ocap : Nat)
    (hr : r + rows ≤ drows) (hcs : c + cols ≤ dcols) (hc : dcols ≤ dcap) (hoc : cols ≤ ocap)
    (i1 : MatIn h src scap rows cols) (im : MatIn h dest dcap drows dcols) (io : MatIn h out ocap rows cols)
    (hs : Sep src scap rows cols dest dcap drows dcols)
    (ho : Sep dest dcap drows dcols out ocap rows cols) :
    ∃ h1 h2, zRawMatPut dest dcap drows dcols r c src scap rows cols h = .ok h1 ∧
      zRawMatGet dest dcap drows dcols r c out ocap rows cols h1 = .ok h2 ∧
      ∀ i j, i < rows → j < cols → h2.val (out + i*ocap + j) = h.val (src + i*scap + j) := by
  obtain ⟨h1, e1, w1⟩ := zRawMatPut_correct h dest dcap drows dcols r c src scap rows cols (by omega) hc
    i1 im hs
  obtain ⟨h2, e2, w2⟩ := zRawMatGet_correct h1 dest dcap drows dcols r c out ocap rows cols (by omega) hoc
    (by intro i j hi hj; rw [w1.1]; exact im i j hi hj) (by intro i j hi hj; rw [w1.1]; exact io i j hi hj) ho
  refine ⟨h1, h2, e1, e2, ?_⟩
  intro i j hi hj
  rw [w2.2.1 i j (by omega) (by omega)]; beta_reduce
  rw [show dest + (r+i)*dcap + (c+j) = dest + r*dcap + c + i*dcap + j by
    rw [Nat.add_mul]; omega, w1.2.1 i j (by omega) (by omega)]

/-- Concrete case: a 2×2 block of a 3×3 matrix stored with stride 4 is copied to a 2×2 matrix. -/
example : MatIn (Mem.ofList (List.range 16) : Mem Nat) 0 4 3 3 ∧ MatIn (Mem.ofList (List.range 16) : Mem Nat) 12 2 2 2 ∧
    Sep 0 4 3 3 12 2 2 2 := by
  refine ⟨?_, ?_, ?_⟩ <;> intro i j hi hj <;> simp [Mem.ofList, Outside] <;> omega

/-! ## C11: products -/

open Finset in
theorem zRawMatColInnerProd_correct [CommRing K] (h : Mem K) (m cap v rows col : Nat)
    (i1 : ∀ i, i < rows → m + col + i*cap < h.size) (iv : v + rows ≤ h.size) :
    zRawMatColInnerProd m cap v rows col h = .ok (∑ i ∈ range rows, h.val (m + col + i*cap) * h.val (v+i)) := by
  unfold zRawMatColInnerProd
  obtain ⟨a, ha, hs, hp, hq⟩ := forUpM_ok (lo := 0) (hi := rows)
    (fun i (a : Acc K) => do return a.step ((← h.rd (m+col+i*cap)) * (← h.rd (v+i)))) (⟨0, 0, 0⟩ : Acc K)
    (fun k a => a.s = ∑ i ∈ range k, h.val (m + col + i*cap) * h.val (v+i) ∧ a.s_prev = a.s ∧ a.q = 0)
    (Nat.zero_le _) ⟨by simp, rfl, rfl⟩
    (by
      rintro k a - hk ⟨hs, hp, hq⟩
      refine ⟨a.step (h.val (m + col + k*cap) * h.val (v+k)), ?_, ?_, ?_, ?_⟩
      · simp [Mem.rd_ok h (i1 k hk), Mem.rd_ok h (show v+k < h.size by omega)]
      · simp [Acc.step, sum_range_succ, hp, hs]
      · simp [Acc.step]
      · simp [Acc.step, hq])
  rw [ha]; simp [hs, hq]

/-- A loop storing computed values into consecutive cells. -/
theorem store_loop (h : Mem K) (p n : Nat) (g : Nat → Mem K → Res K) (f : Nat → K) (hp : p + n ≤ h.size)
    (hg : ∀ i t, i < n → t.size = h.size → (∀ a, a < p ∨ p + n ≤ a → t.val a = h.val a) → g i t = .ok (f i)) :
    ∃ h', forUpM 0 n (fun i h => do h.wr (p + i) (← g i h)) h = .ok h' ∧ Wrote h h' p n f := by
  obtain ⟨h', hh, hsz, hw, hf⟩ := forUpM_ok (lo := 0) (hi := n)
    (fun i (h : Mem K) => do h.wr (p + i) (← g i h)) h
    (fun k (t : Mem K) => t.size = h.size ∧ (∀ i, i < k → t.val (p+i) = f i) ∧
      (∀ a, a < p ∨ p + k ≤ a → t.val a = h.val a)) (Nat.zero_le _) ⟨rfl, by simp, by simp⟩
    (by
      rintro k t - hk ⟨hsz, hw, hf⟩
      refine ⟨⟨t.size, fun j => if j = p+k then f k else t.val j⟩, ?_, hsz, ?_, ?_⟩
      · simp [hg k t hk hsz (fun a ha => hf a (by omega)), Mem.wr_ok t _ (show p+k < t.size by omega)]
      · intro i hi
        by_cases hik : i = k
        · subst hik; simp
        · simp only; rw [if_neg (by omega), hw i (by omega)]
      · intro a ha
        simp only; rw [if_neg (by omega), hf a (by omega)])
  exact ⟨h', hh, hsz, hw, hf⟩

/-- Vector operand apart from the destination vector. -/
def VSep (v n p k : Nat) : Prop := v + n ≤ p ∨ p + k ≤ v ∨ n = 0 ∨ k = 0

open Finset in
/-- **C11** matrix–vector product. -/
theorem zRawMulMatVec_correct [CommRing K] (h : Mem K) (m cap v rows cols mv : Nat)
    (im : MatIn h m cap rows cols) (iv : v + cols ≤ h.size) (ip : mv + rows ≤ h.size)
    (hs : ∀ i j, i < rows → j < cols → m + i*cap + j < mv ∨ mv + rows ≤ m + i*cap + j)
    (hv : VSep v cols mv rows) :
    ∃ h', zRawMulMatVec m cap v rows cols mv h = .ok h' ∧
      Wrote h h' mv rows (fun i => ∑ j ∈ range cols, h.val (m + i*cap + j) * h.val (v + j)) := by
  refine store_loop h mv rows _ _ ip ?_
  intro i t hi hsz hout
  rcases Nat.eq_zero_or_pos cols with rfl | hpos
  · simp [zRawVecInnerProd, forUpM, forNM]
  · rw [zRawVecInnerProd_correct t _ _ _ (row_in im hi hsz hpos) (by omega)]
    congr 1
    refine sum_congr rfl (fun j hj => ?_)
    have hj := mem_range.1 hj
    rw [hout _ (hs i j hi hj), hout (v+j) (by unfold VSep at hv; omega)]

open Finset in
/-- **C11** transposed-matrix–vector product. -/
theorem zRawMulMatTVec_correct [CommRing K] (h : Mem K) (m cap v rows cols mv : Nat)
    (im : MatIn h m cap rows cols) (iv : v + rows ≤ h.size) (ip : mv + cols ≤ h.size)
    (hs : ∀ i j, i < rows → j < cols → m + i*cap + j < mv ∨ mv + cols ≤ m + i*cap + j)
    (hv : VSep v rows mv cols) :
    ∃ h', zRawMulMatTVec m cap v rows cols mv h = .ok h' ∧
      Wrote h h' mv cols (fun j => ∑ i ∈ range rows, h.val (m + i*cap + j) * h.val (v + i)) := by
  refine store_loop h mv cols _ _ ip ?_
  intro j t hj hsz hout
  rw [zRawMatColInnerProd_correct t m cap v rows j
    (by intro i hi; rw [hsz]; have := im i j hi hj; omega) (by omega)]
  congr 1
  refine sum_congr rfl (fun i hi => ?_)
  have hi := mem_range.1 hi
  rw [show m + j + i*cap = m + i*cap + j by omega, hout _ (hs i j hi hj), hout (v+i) (by unfold VSep at hv; omega)]

open Finset in
/-- **C11** matrix–matrix product. -/
theorem zRawMulMatMat_correct [CommRing K] (h : Mem K) (m1 cap1 rows1 m2 cap2 inner cols2 m cap3 : Nat)
    (hc : cols2 ≤ cap3) (i1 : MatIn h m1 cap1 rows1 inner) (i2 : MatIn h m2 cap2 inner cols2)
    (im : MatIn h m cap3 rows1 cols2)
    (s1 : Sep m1 cap1 rows1 inner m cap3 rows1 cols2) (s2 : Sep m2 cap2 inner cols2 m cap3 rows1 cols2) :
    ∃ h', zRawMulMatMat m1 cap1 rows1 m2 cap2 inner cols2 m cap3 h = .ok h' ∧
      WroteMat h h' m cap3 rows1 cols2
        (fun i j => ∑ k ∈ range inner, h.val (m1 + i*cap1 + k) * h.val (m2 + k*cap2 + j)) := by
  refine rows_wrote h m cap3 rows1 cols2 _ hc _ ?_
  intro i t hi hsz hout
  rcases Nat.eq_zero_or_pos cols2 with rfl | hpos
  · exact ⟨t, by simp [zRawMulMatTVec, forUpM, forNM], wrote_zero _ _ _⟩
  by_cases hk : inner = 0
  · subst hk
    obtain ⟨t', ht, hw⟩ := store_loop t (m + i*cap3) cols2
      (fun j h => zRawMatColInnerProd m2 cap2 (m1 + i*cap1) 0 j h) (fun _ => 0)
      (row_in im hi hsz hpos) (by intro j t hj _ _; simp [zRawMatColInnerProd, forUpM, forNM])
    exact ⟨t', ht, by simpa using hw⟩
  obtain ⟨t', ht, hw⟩ := zRawMulMatTVec_correct t m2 cap2 (m1 + i*cap1) inner cols2 (m + i*cap3)
    (by intro a b ha hb; rw [hsz]; exact i2 a b ha hb) (row_in i1 hi hsz (by omega)) (row_in im hi hsz hpos)
    (by
      intro a b ha hb
      by_contra hcon
      simp only [not_or, not_le, not_lt] at hcon
      exact s2 a b ha hb i (m2 + a*cap2 + b - (m + i*cap3)) hi (by omega) (by omega))
    (by
      unfold VSep
      by_contra hcon
      simp only [not_or, not_le] at hcon
      by_cases hle : m1 + i*cap1 ≤ m + i*cap3
      · exact s1 i (m + i*cap3 - (m1 + i*cap1)) hi (by omega) i 0 hi (by omega) (by omega)
      · exact s1 i 0 hi (by omega) i (m1 + i*cap1 - (m + i*cap3)) hi (by omega) (by omega))
  refine ⟨t', ht, hw.1, ?_, hw.2.2⟩
  intro j hj
  rw [hw.2.1 j hj]
  refine sum_congr rfl (fun k hk => ?_)
  have hk := mem_range.1 hk
  rw [hout _ (fun i' j' hi' hj' => s1 i k hi hk i' j' (by omega) hj'),
    hout _ (fun i' j' hi' hj' => s2 k j hk hj i' j' (by omega) hj'), mul_comm]

open Finset in
/-- **C11** matrix–transposed-matrix product. -/
theorem zRawMulMatMatT_correct [CommRing K] (h : Mem K) (m1 cap1 rows1 m2 cap2 rows2 inner m cap3 : Nat)
    (hc : rows2 ≤ cap3) (i1 : MatIn h m1 cap1 rows1 inner) (i2 : MatIn h m2 cap2 rows2 inner)
    (im : MatIn h m cap3 rows1 rows2)
    (s1 : Sep m1 cap1 rows1 inner m cap3 rows1 rows2) (s2 : Sep m2 cap2 rows2 inner m cap3 rows1 rows2) :
    ∃ h', zRawMulMatMatT m1 cap1 rows1 m2 cap2 rows2 inner m cap3 h = .ok h' ∧
      WroteMat h h' m cap3 rows1 rows2
        (fun i j => ∑ k ∈ range inner, h.val (m1 + i*cap1 + k) * h.val (m2 + j*cap2 + k)) := by
  refine rows_wrote h m cap3 rows1 rows2 _ hc _ ?_
  intro i t hi hsz hout
  rcases Nat.eq_zero_or_pos rows2 with rfl | hpos
  · exact ⟨t, by simp [zRawMulMatVec, forUpM, forNM], wrote_zero _ _ _⟩
  by_cases hk : inner = 0
  · subst hk
    obtain ⟨t', ht, hw⟩ := store_loop t (m + i*cap3) rows2
      (fun j h => zRawVecInnerProd (m2 + j*cap2) (m1 + i*cap1) (0:Nat) h) (fun _ => 0)
      (row_in im hi hsz hpos) (by intro j t hj _ _; simp [zRawVecInnerProd, forUpM, forNM])
    exact ⟨t', ht, by simpa using hw⟩
  obtain ⟨t', ht, hw⟩ := zRawMulMatVec_correct t m2 cap2 (m1 + i*cap1) rows2 inner (m + i*cap3)
    (by intro a b ha hb; rw [hsz]; exact i2 a b ha hb) (row_in i1 hi hsz (by omega)) (row_in im hi hsz hpos)
    (by
      intro a b ha hb
      by_contra hcon
      simp only [not_or, not_le, not_lt] at hcon
      exact s2 a b ha hb i (m2 + a*cap2 + b - (m + i*cap3)) hi (by omega) (by omega))
    (by
      unfold VSep
      by_contra hcon
      simp only [not_or, not_le] at hcon
      by_cases hle : m1 + i*cap1 ≤ m + i*cap3
      · exact s1 i (m + i*cap3 - (m1 + i*cap1)) hi (by omega) i 0 hi (by omega) (by omega)
      · exact s1 i 0 hi (by omega) i (m1 + i*cap1 - (m + i*cap3)) hi (by omega) (by omega))
  refine ⟨t', ht, hw.1, ?_, hw.2.2⟩
  intro j hj
  rw [hw.2.1 j hj]
  refine sum_congr rfl (fun k hk => ?_)
  have hk := mem_range.1 hk
  rw [hout _ (fun i' j' hi' hj' => s1 i k hi hk i' j' (by omega) hj'),
    hout _ (fun i' j' hi' hj' => s2 j k hj hk i' j' (by omega) hj'), mul_comm]

/-- Nested element loop: iteration `(i,j)` writes the final value into element `(i,j)`. -/
theorem cells_wrote (h : Mem K) (base cap rows cols : Nat) (f : Nat → Nat → K) (hc : cols ≤ cap)
    (body : Nat → Nat → Mem K → Res (Mem K))
    (step : ∀ i j t, i < rows → j < cols → t.size = h.size →
      (∀ a, Outside base cap rows cols a → t.val a = h.val a) →
      t.val (base + i*cap + j) = h.val (base + i*cap + j) →
      ∃ t', body i j t = .ok t' ∧ Upd t t' {base + i*cap + j} (byAddr base cap f)) :
    ∃ h', forUpM 0 rows (fun i h => forUpM 0 cols (body i) h) h = .ok h' ∧ WroteMat h h' base cap rows cols f := by
  obtain ⟨h', hh, hu⟩ := forUpM_upd rows (fun i h => forUpM 0 cols (body i) h) h
    (fun i => {a | ∃ j, j < cols ∧ a = base + i*cap + j}) (byAddr base cap f) (by
      intro i t hi hu
      obtain ⟨t', ht, hu'⟩ := forUpM_upd cols (body i) t (fun j => {base + i*cap + j}) (byAddr base cap f) (by
        intro j s hj hus
        refine step i j s hi hj (hus.1.trans hu.1) ?_ ?_
        · intro a ha
          rw [hus.2.2 a, hu.2.2 a]
          · rintro ⟨i', hi', j', hj', e⟩
            exact ha i' j' (by omega) hj' e
          · rintro ⟨j', hj', e⟩
            simp only [Set.mem_singleton_iff] at e
            exact ha i j' hi (by omega) e
        · rw [hus.2.2, hu.2.2]
          · rintro ⟨i', hi', j', hj', e⟩
            have := cell_inj (cap := cap) (i := i) (i' := i') (j := j) (j' := j') (by omega) (by omega) (by omega)
            omega
          · rintro ⟨j', hj', e⟩
            simp only [Set.mem_singleton_iff] at e
            omega)
      exact ⟨t', ht, hu'.congr (by ext a; simp) (fun _ _ => rfl)⟩)
  refine ⟨h', hh, wrote_of_upd hc ?_ hu⟩
  intro a
  simp only [Set.mem_ofPred_eq]
  constructor
  · rintro ⟨i, hi, j, hj, e⟩; exact ⟨i, j, hi, hj, e⟩
  · rintro ⟨i, j, hi, hj, e⟩; exact ⟨i, hi, j, hj, e⟩

open Finset in
/-- **C11** transposed-matrix–matrix product. -/
theorem zRawMulMatTMat_correct [CommRing K] (h : Mem K) (m1 cap1 rows cols1 m2 cap2 cols2 m cap3 : Nat)
    (hc : cols2 ≤ cap3) (i1 : MatIn h m1 cap1 rows cols1) (i2 : MatIn h m2 cap2 rows cols2)
    (im : MatIn h m cap3 cols1 cols2)
    (s1 : Sep m1 cap1 rows cols1 m cap3 cols1 cols2) (s2 : Sep m2 cap2 rows cols2 m cap3 cols1 cols2) :
    ∃ h', zRawMulMatTMat m1 cap1 rows cols1 m2 cap2 cols2 m cap3 h = .ok h' ∧
      WroteMat h h' m cap3 cols1 cols2
        (fun i j => ∑ k ∈ range rows, h.val (m1 + k*cap1 + i) * h.val (m2 + k*cap2 + j)) := by
  refine cells_wrote h m cap3 cols1 cols2 _ hc _ ?_
  intro i j t hi hj hsz hout _
  have hin : m + i*cap3 + j < t.size := by rw [hsz]; exact im i j hi hj
  have key := forUpM_ok (lo := 0) (hi := rows) (fun k (h : Mem K) => do
      h.wr (m + i*cap3 + j) ((← h.rd (m + i*cap3 + j)) + (← h.rd (m1 + i + k*cap1)) * (← h.rd (m2 + j + k*cap2))))
    ⟨t.size, fun a => if a = m + i*cap3 + j then 0 else t.val a⟩
    (fun n s => s.size = t.size ∧ s.val (m + i*cap3 + j) =
        ∑ k ∈ range n, h.val (m1 + k*cap1 + i) * h.val (m2 + k*cap2 + j) ∧
        ∀ a, a ≠ m + i*cap3 + j → s.val a = t.val a) (Nat.zero_le _)
    ⟨rfl, by simp, by intro a ha; simp [ha]⟩
    (by
      rintro k s - hk ⟨ss, sv, so⟩
      have r1 : s.rd (m1 + i + k*cap1) = .ok (h.val (m1 + k*cap1 + i)) := by
        rw [show m1 + i + k*cap1 = m1 + k*cap1 + i by omega, Mem.rd_ok _ (by rw [ss, hsz]; exact i1 k i hk hi),
          so _ (fun e => s1 k i hk hi i j hi hj e), hout _ (s1 k i hk hi)]
      have r2 : s.rd (m2 + j + k*cap2) = .ok (h.val (m2 + k*cap2 + j)) := by
        rw [show m2 + j + k*cap2 = m2 + k*cap2 + j by omega, Mem.rd_ok _ (by rw [ss, hsz]; exact i2 k j hk hj),
          so _ (fun e => s2 k j hk hj i j hi hj e), hout _ (s2 k j hk hj)]
      refine ⟨⟨s.size, fun a => if a = m + i*cap3 + j then
        s.val (m + i*cap3 + j) + h.val (m1 + k*cap1 + i) * h.val (m2 + k*cap2 + j) else s.val a⟩, ?_, ss, ?_, ?_⟩
      · simp [r1, r2, Mem.rd_ok s (show m + i*cap3 + j < s.size by omega),
          Mem.wr_ok s _ (show m + i*cap3 + j < s.size by omega)]
      · simp [sv, sum_range_succ]
      · intro a ha; simp [ha, so a ha])
  obtain ⟨s, hs, ss, sv, so⟩ := key
  refine ⟨s, ?_, ss, ?_, ?_⟩
  · rw [Mem.wr_ok t _ hin]; exact hs
  · intro a ha
    simp only [Set.mem_singleton_iff] at ha
    subst ha
    rw [sv, byAddr_eq _ _ _ (by omega)]
  · intro a ha
    simp only [Set.mem_singleton_iff] at ha
    exact so a ha

section dyads
variable [CommRing K] (h : Mem K) (m cap v1 size1 v2 size2 : Nat) (hc : size2 ≤ cap)
  (im : MatIn h m cap size1 size2) (i1 : v1 + size1 ≤ h.size) (i2 : v2 + size2 ≤ h.size)
  (s1 : ∀ i, i < size1 → Outside m cap size1 size2 (v1 + i))
  (s2 : ∀ j, j < size2 → Outside m cap size1 size2 (v2 + j))
include hc im i1 i2 s1 s2

/-- **C11** dyadic product. -/
theorem zRawVecDyad_correct : ∃ h', zRawVecDyad v1 size1 v2 size2 m cap h = .ok h' ∧
    WroteMat h h' m cap size1 size2 (fun i j => h.val (v1+i) * h.val (v2+j)) := by
  refine cells_wrote h m cap size1 size2 _ hc _ ?_
  intro i j t hi hj hsz hout _
  obtain ⟨t', ht, hu⟩ := wr_upd t (a := m + i*cap + j) (h.val (v1+i) * h.val (v2+j)) (by rw [hsz]; exact im i j hi hj)
    (byAddr m cap (fun i j => h.val (v1+i) * h.val (v2+j))) (byAddr_eq _ _ _ (by omega))
  refine ⟨t', ?_, hu⟩
  simp [Mem.rd_ok t (show v1 + i < t.size by omega), Mem.rd_ok t (show v2 + j < t.size by omega),
    hout _ (s1 i hi), hout _ (s2 j hj), ht]

/-- **C11** adding a dyadic product. -/
theorem zRawMatAddDyad_correct : ∃ h', zRawMatAddDyad m cap v1 size1 v2 size2 h = .ok h' ∧
    WroteMat h h' m cap size1 size2 (fun i j => h.val (m + i*cap + j) + h.val (v1+i) * h.val (v2+j)) := by
  refine cells_wrote h m cap size1 size2 _ hc _ ?_
  intro i j t hi hj hsz hout hself
  obtain ⟨t', ht, hu⟩ := wr_upd t (a := m + i*cap + j) (h.val (m + i*cap + j) + h.val (v1+i) * h.val (v2+j))
    (by rw [hsz]; exact im i j hi hj)
    (byAddr m cap (fun i j => h.val (m + i*cap + j) + h.val (v1+i) * h.val (v2+j))) (byAddr_eq _ _ _ (by omega))
  refine ⟨t', ?_, hu⟩
  simp [Mem.rd_ok t (show v1 + i < t.size by omega), Mem.rd_ok t (show v2 + j < t.size by omega),
    Mem.rd_ok t (show m + i*cap + j < t.size by rw [hsz]; exact im i j hi hj), hself,
    hout _ (s1 i hi), hout _ (s2 j hj), ht]

/-- **C11** subtracting a dyadic product. -/
theorem zRawMatSubDyad_correct : ∃ h', zRawMatSubDyad m cap v1 size1 v2 size2 h = .ok h' ∧
    WroteMat h h' m cap size1 size2 (fun i j => h.val (m + i*cap + j) - h.val (v1+i) * h.val (v2+j)) := by
  refine cells_wrote h m cap size1 size2 _ hc _ ?_
  intro i j t hi hj hsz hout hself
  obtain ⟨t', ht, hu⟩ := wr_upd t (a := m + i*cap + j) (h.val (m + i*cap + j) - h.val (v1+i) * h.val (v2+j))
    (by rw [hsz]; exact im i j hi hj)
    (byAddr m cap (fun i j => h.val (m + i*cap + j) - h.val (v1+i) * h.val (v2+j))) (byAddr_eq _ _ _ (by omega))
  refine ⟨t', ?_, hu⟩
  simp [Mem.rd_ok t (show v1 + i < t.size by omega), Mem.rd_ok t (show v2 + j < t.size by omega),
    Mem.rd_ok t (show m + i*cap + j < t.size by rw [hsz]; exact im i j hi hj), hself,
    hout _ (s1 i hi), hout _ (s2 j hj), ht]

/-- **C11** adding a scaled dyadic product. -/
theorem zRawMatCatDyad_correct (k : K) : ∃ h', zRawMatCatDyad m cap k v1 size1 v2 size2 h = .ok h' ∧
    WroteMat h h' m cap size1 size2 (fun i j => h.val (m + i*cap + j) + k * (h.val (v1+i) * h.val (v2+j))) := by
  refine cells_wrote h m cap size1 size2 _ hc _ ?_
  intro i j t hi hj hsz hout hself
  obtain ⟨t', ht, hu⟩ := wr_upd t (a := m + i*cap + j) (h.val (m + i*cap + j) + k * h.val (v1+i) * h.val (v2+j))
    (by rw [hsz]; exact im i j hi hj)
    (byAddr m cap (fun i j => h.val (m + i*cap + j) + k * (h.val (v1+i) * h.val (v2+j))))
    (by rw [byAddr_eq _ _ _ (by omega), mul_assoc])
  refine ⟨t', ?_, hu⟩
  simp [Mem.rd_ok t (show v1 + i < t.size by omega), Mem.rd_ok t (show v2 + j < t.size by omega),
    Mem.rd_ok t (show m + i*cap + j < t.size by rw [hsz]; exact im i j hi hj), hself,
    hout _ (s1 i hi), hout _ (s2 j hj), ht]
end dyads

open Finset in
/-- **C11** trace. -/
theorem zRawMatTrace_correct [CommRing K] (h : Mem K) (m cap rows cols : Nat) (im : MatIn h m cap rows cols) :
    zRawMatTrace m cap rows cols h = .ok (∑ i ∈ range (min rows cols), h.val (m + i*cap + i)) := by
  unfold zRawMatTrace
  obtain ⟨a, ha, hs, hp, hq⟩ := forUpM_ok (lo := 0) (hi := min rows cols)
    (fun i (a : Acc K) => do return a.step (← h.rd (m + i*(cap+1)))) (⟨0, 0, 0⟩ : Acc K)
    (fun k a => a.s = ∑ i ∈ range k, h.val (m + i*cap + i) ∧ a.s_prev = a.s ∧ a.q = 0)
    (Nat.zero_le _) ⟨by simp, rfl, rfl⟩
    (by
      rintro k a - hk ⟨hs, hp, hq⟩
      have e : m + k*(cap+1) = m + k*cap + k := by rw [Nat.mul_add]; omega
      refine ⟨a.step (h.val (m + k*cap + k)), ?_, ?_, ?_, ?_⟩
      · simp [e, Mem.rd_ok h (im k k (by omega) (by omega))]
      · simp [Acc.step, sum_range_succ, hp, hs]
      · simp [Acc.step]
      · simp [Acc.step, hq])
  rw [ha]; simp [hs, hq]

open Finset in
/-- **C11** squared (Frobenius) norm. -/
theorem zRawMatSqrNorm_correct [CommRing K] (h : Mem K) (m cap rows cols : Nat) (im : MatIn h m cap rows cols) :
    zRawMatSqrNorm m cap rows cols h = .ok (∑ i ∈ range rows, ∑ j ∈ range cols, h.val (m + i*cap + j) ^ 2) := by
  unfold zRawMatSqrNorm
  obtain ⟨d, hd, hs⟩ := forUpM_ok (lo := 0) (hi := rows)
    (fun i (norm : K) => do return norm + (← zRawVecSqrNorm (m + i*cap) cols h)) (0 : K)
    (fun k d => d = ∑ i ∈ range k, ∑ j ∈ range cols, h.val (m + i*cap + j) ^ 2) (Nat.zero_le _) (by simp)
    (by
      rintro k d - hk hs
      refine ⟨d + ∑ j ∈ range cols, h.val (m + k*cap + j) ^ 2, ?_, by rw [sum_range_succ, hs]⟩
      rcases Nat.eq_zero_or_pos cols with rfl | hpos
      · simp [zRawVecSqrNorm, zRawVecInnerProd, forUpM, forNM]
      · have := row_in im hk rfl hpos
        simp [zRawVecSqrNorm, zRawVecInnerProd_correct h (m + k*cap) (m + k*cap) cols this this, pow_two])
  rw [hd, hs]

/-- Concrete case: 2×3 times 3×2 inside one block of 16 cells satisfies the hypotheses of the product theorem. -/
example : MatIn (Mem.ofList (List.replicate 16 (1:ℤ))) 0 3 2 3 ∧ MatIn (Mem.ofList (List.replicate 16 (1:ℤ))) 6 2 3 2 ∧
    MatIn (Mem.ofList (List.replicate 16 (1:ℤ))) 12 2 2 2 ∧ Sep 0 3 2 3 12 2 2 2 ∧ Sep 6 2 3 2 12 2 2 2 := by
  refine ⟨?_, ?_, ?_, ?_, ?_⟩ <;> intro i j hi hj <;> simp [Mem.ofList, Outside] <;> omega

end Zm.RawMat
