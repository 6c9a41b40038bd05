import Verif.Model.Bessel
import Mathlib.Tactic.LinearCombination
import Mathlib.Tactic.Linarith
import Mathlib.Tactic.Positivity
import Mathlib.Tactic.FieldSimp

/-! # Bessel functions: reads inside of the tables, parity, recurrences -/

set_option linter.unusedSectionVars false

namespace Zm.Bessel
open Zm

/-! ## Polynomials -/

/-- The polynomial of coefficients `c`, the constant first. -/
noncomputable def ev (c : List ℚ) (x : ℝ) : ℝ := c.foldr (fun a r => (a : ℝ) + x * r) 0

@[simp] theorem ev_nil (x : ℝ) : ev [] x = 0 := rfl

@[simp] theorem ev_cons (a : ℚ) (c : List ℚ) (x : ℝ) : ev (a :: c) x = a + x * ev c x := rfl

/-- The part of a table with which a polynomial is computed, the constant first. -/
def row (tab : List ℚ) (off dim : Nat) : List ℚ := ((tab.drop off).take dim).reverse

theorem row_succ (tab : List ℚ) (off i : Nat) (h : off + i < tab.length) : row tab off (i + 1) = tab.getD (off + i) 0 :: row tab off i := by
  unfold row
  rw [List.take_succ, List.reverse_append, List.getElem?_drop, List.getElem?_eq_getElem h, List.getD_eq_getElem?_getD, List.getElem?_eq_getElem h]
  rfl

theorem rd_ok (tab : List ℚ) (i : Nat) (h : i < tab.length) : rd tab i = .ok ((tab.getD i 0 : ℚ) : ℝ) := by
  unfold rd
  rw [if_pos ⟨Int.natCast_nonneg _, by exact_mod_cast h⟩]
  rfl

/-- Inside of the table the loop computes the polynomial. -/
theorem brec_spec (tab : List ℚ) (off dim : Nat) (h : off + dim ≤ tab.length) (h1 : 1 ≤ dim) (x : ℝ) : brec tab off dim x = .ok (ev (row tab off dim) x) := by
  unfold brec
  rw [rd_ok tab off (by omega)]
  show forUpM 1 dim _ _ = _
  obtain ⟨s', e, hs⟩ := forUpM_ok (lo := 1) (hi := dim) (fun i ret => (rd tab ((off : Int) + i)).bind fun c => .ok (ret * x + c)) ((tab.getD off 0 : ℚ) : ℝ)
    (fun i r => r = ev (row tab off i) x) h1 (by rw [row_succ tab off 0 (by omega)]; simp [row])
    (by
      rintro i t h2 h3 rfl
      have e : ((off : Int) + i) = ((off + i : ℕ) : Int) := by push_cast; rfl
      refine ⟨_, by rw [e, rd_ok tab (off + i) (by omega)]; rfl, ?_⟩
      rw [row_succ tab off i (by omega), ev_cons]
      ring)
  rw [e, hs]

theorem brec_int (tab : List ℚ) (off : Int) (dim : Nat) (h0 : 0 ≤ off) (h : off + dim ≤ tab.length) (h1 : 1 ≤ dim) (x : ℝ) :
    brec tab off dim x = .ok (ev (row tab off.toNat dim) x) := by
  obtain ⟨n, rfl⟩ := Int.eq_ofNat_of_zero_le h0
  exact brec_spec tab n dim (by exact_mod_cast h) h1 x

theorem toInt_nonneg {t : ℝ} (h : 0 ≤ t) : toInt t = ⌊t⌋ := if_pos h

/-- The integer part of a number in a range. -/
theorem toInt_range {t : ℝ} (lo hi : Int) (h0 : 0 ≤ lo) (h1 : (lo : ℝ) ≤ t) (h2 : t < hi) : lo ≤ toInt t ∧ toInt t < hi ∧ (toInt t : ℝ) ≤ t ∧ t < toInt t + 1 := by
  have ht : 0 ≤ t := le_trans (by exact_mod_cast h0) h1
  rw [toInt_nonneg ht]
  exact ⟨Int.le_floor.mpr h1, Int.floor_lt.mpr h2, Int.floor_le t, Int.lt_floor_add_one t⟩

theorem toInt_lt5 {t : ℝ} (h0 : 0 ≤ t) (h : t < 5) : 0 ≤ toInt t ∧ toInt t < 5 ∧ (toInt t : ℝ) ≤ t ∧ t < toInt t + 1 :=
  toInt_range 0 5 le_rfl (by simpa using h0) (by simpa using h)

/-! ## No read outside of the tables -/

set_option maxRecDepth 4000

theorem len_J0a : tJ0a.length = 8 := rfl
theorem len_J0b : tJ0b.length = 65 := rfl
theorem len_J0c : tJ0c.length = 70 := rfl
theorem len_J0d : tJ0d.length = 52 := rfl
theorem len_J1a : tJ1a.length = 8 := rfl
theorem len_J1b : tJ1b.length = 65 := rfl
theorem len_J1c : tJ1c.length = 70 := rfl
theorem len_J1d : tJ1d.length = 52 := rfl
theorem len_Y0a : tY0a.length = 16 := rfl
theorem len_Y0b : tY0b.length = 112 := rfl
theorem len_Y0c : tY0c.length = 126 := rfl
theorem len_Y0d : tY0d.length = 52 := rfl
theorem len_Y1a : tY1a.length = 16 := rfl
theorem len_Y1b : tY1b.length = 112 := rfl
theorem len_Y1c : tY1c.length = 126 := rfl
theorem len_Y1d : tY1d.length = 52 := rfl
theorem len_I0a : tI0a.length = 65 := rfl
theorem len_I0b : tI0b.length = 70 := rfl
theorem len_I0c : tI0c.length = 45 := rfl
theorem len_I1a : tI1a.length = 60 := rfl
theorem len_I1b : tI1b.length = 70 := rfl
theorem len_I1c : tI1c.length = 45 := rfl
theorem len_K0a : tK0a.length = 16 := rfl
theorem len_K0b : tK0b.length = 112 := rfl
theorem len_K0c : tK0c.length = 135 := rfl
theorem len_K0d : tK0d.length = 40 := rfl
theorem len_K1a : tK1a.length = 16 := rfl
theorem len_K1b : tK1b.length = 120 := rfl
theorem len_K1c : tK1c.length = 120 := rfl
theorem len_K1d : tK1d.length = 40 := rfl

theorem sixteenth {x : ℝ} (h0 : 0 ≤ x) (h : x < 17 / 2) : 0 ≤ x * x * (1 / 16) ∧ x * x * (1 / 16) < 5 := by
  constructor
  · positivity
  · nlinarith

theorem recip_sq {x : ℝ} (h : 25 / 2 ≤ x) : 0 ≤ 24 / x * (24 / x) ∧ 24 / x * (24 / x) < 4 := by
  have hx : 0 < x := by linarith
  have h1 : 24 / x ≤ 48 / 25 := by rw [div_le_iff₀ hx]; linarith
  have h2 : 0 ≤ 24 / x := by positivity
  constructor
  · positivity
  · nlinarith

theorem recip_60 {x : ℝ} (h : 25 / 2 ≤ x) : 0 ≤ 60 / x ∧ 60 / x < 5 := by
  have hx : 0 < x := by linarith
  exact ⟨by positivity, by rw [div_lt_iff₀ hx]; linarith⟩

/-- The two polynomials of amplitude and phase. -/
theorem phase_ok (tab : List ℚ) (hl : tab.length = 52) {t : ℝ} (h0 : 0 ≤ t) (h4 : t < 4) :
    (∃ p, brec tab (toInt t * 13) 7 t = .ok p) ∧ ∃ q, brec tab (toInt t * 13 + 7) 6 t = .ok q := by
  obtain ⟨h1, h2, _⟩ := toInt_range 0 4 le_rfl (by simpa using h0) (by simpa using h4)
  exact ⟨⟨_, brec_int tab _ 7 (by omega) (by rw [hl]; push_cast; omega) (by omega) _⟩, ⟨_, brec_int tab _ 6 (by omega) (by rw [hl]; push_cast; omega) (by omega) _⟩⟩

/-- **`zBesselJ0` reads inside of its tables and gives a number, for every argument.** -/
theorem zBesselJ0_ok (x : ℝ) : ∃ y, zBesselJ0 x = .ok y := by
  unfold zBesselJ0
  dsimp only
  by_cases h1 : |x| < 1
  · rw [if_pos h1]
    exact ⟨_, brec_int tJ0a 0 8 le_rfl (by rw [len_J0a]; norm_num) (by omega) _⟩
  rw [if_neg h1]
  by_cases h2 : |x| < 17 / 2
  · rw [if_pos h2]
    obtain ⟨h3, h4⟩ := sixteenth (abs_nonneg x) h2
    obtain ⟨h5, h6, _⟩ := toInt_lt5 h3 h4
    exact ⟨_, brec_int tJ0b _ 13 (by omega) (by rw [len_J0b]; push_cast; omega) (by omega) _⟩
  rw [if_neg h2]
  by_cases h3 : |x| < 25 / 2
  · rw [if_pos h3]
    obtain ⟨h5, h6, _⟩ := toInt_range (t := |x|) 8 13 (by omega) (by push_cast; linarith) (by push_cast; linarith)
    exact ⟨_, brec_int tJ0c _ 14 (by omega) (by rw [len_J0c]; push_cast; omega) (by omega) _⟩
  rw [if_neg h3]
  obtain ⟨h4, h5⟩ := recip_sq (not_lt.mp h3)
  obtain ⟨⟨p, hp⟩, ⟨q, hq⟩⟩ := phase_ok tJ0d len_J0d h4 h5
  rw [hp, hq]
  exact ⟨_, rfl⟩

theorem besselJ1_ok {x : ℝ} (h0 : 0 ≤ x) : ∃ y, besselJ1 x = .ok y := by
  unfold besselJ1
  dsimp only
  by_cases h1 : x < 1
  · rw [if_pos h1, brec_int tJ1a 0 8 le_rfl (by rw [len_J1a]; norm_num) (by omega) _]
    exact ⟨_, rfl⟩
  rw [if_neg h1]
  by_cases h2 : x < 17 / 2
  · rw [if_pos h2]
    obtain ⟨h3, h4⟩ := sixteenth h0 h2
    obtain ⟨h5, h6, _⟩ := toInt_lt5 h3 h4
    rw [brec_int tJ1b _ 13 (by omega) (by rw [len_J1b]; push_cast; omega) (by omega) _]
    exact ⟨_, rfl⟩
  rw [if_neg h2]
  by_cases h3 : x < 25 / 2
  · rw [if_pos h3]
    obtain ⟨h5, h6, _⟩ := toInt_range (t := x) 8 13 (by omega) (by push_cast; linarith) (by push_cast; linarith)
    exact ⟨_, brec_int tJ1c _ 14 (by omega) (by rw [len_J1c]; push_cast; omega) (by omega) _⟩
  rw [if_neg h3]
  obtain ⟨h4, h5⟩ := recip_sq (not_lt.mp h3)
  obtain ⟨⟨p, hp⟩, ⟨q, hq⟩⟩ := phase_ok tJ1d len_J1d h4 h5
  rw [hp, hq]
  exact ⟨_, rfl⟩

/-- **`zBesselJ1`, likewise.** -/
theorem zBesselJ1_ok (x : ℝ) : ∃ y, zBesselJ1 x = .ok y := by
  unfold zBesselJ1
  by_cases h : x < 0
  · rw [if_pos h]
    obtain ⟨y, hy⟩ := besselJ1_ok (x := -x) (by linarith)
    rw [hy]
    exact ⟨_, rfl⟩
  · rw [if_neg h]; exact besselJ1_ok (not_lt.mp h)

/-- The index of the middle tables of Y and K: x - c/x + c. -/
theorem hyper_range {c x : ℝ} (lo hi : Int) (h0 : 0 ≤ lo) (hx : 0 < x) (h1 : (lo : ℝ) * x ≤ x * x - c + c * x) (h2 : x * x - c + c * x < hi * x) :
    lo ≤ toInt (x - c / x + c) ∧ toInt (x - c / x + c) < hi := by
  have e : x - c / x + c = (x * x - c + c * x) / x := by field_simp
  obtain ⟨h5, h6, _⟩ := toInt_range (t := x - c / x + c) lo hi h0 (by rw [e, le_div_iff₀ hx]; exact h1) (by rw [e, div_lt_iff₀ hx]; exact h2)
  exact ⟨h5, h6⟩

/-- **`zBesselY0` gives a number for positive arguments and NaN for others.** -/
theorem zBesselY0_ok (x : ℝ) : if 0 < x then ∃ y, zBesselY0 x = .ok y else zBesselY0 x = .fail := by
  unfold zBesselY0
  dsimp only
  by_cases h0 : 0 < x
  swap
  · rw [if_neg h0, if_pos (not_lt.mp h0)]
  rw [if_pos h0, if_neg (not_le.mpr h0)]
  by_cases h1 : x < 85 / 100
  · rw [if_pos h1, brec_int tY0a 8 8 (by omega) (by rw [len_Y0a]; norm_num) (by omega), brec_int tY0a 0 8 (by omega) (by rw [len_Y0a]; norm_num) (by omega)]
    exact ⟨_, rfl⟩
  rw [if_neg h1]
  by_cases h2 : x < 9 / 2
  · rw [if_pos h2]
    obtain ⟨h5, h6⟩ := hyper_range (c := 4) (x := x) 0 8 le_rfl h0 (by push_cast; nlinarith) (by push_cast; nlinarith)
    exact ⟨_, brec_int tY0b _ 14 (by omega) (by rw [len_Y0b]; push_cast; omega) (by omega) _⟩
  rw [if_neg h2]
  by_cases h3 : x < 25 / 2
  · rw [if_pos h3]
    obtain ⟨h5, h6, _⟩ := toInt_range (t := x) 4 13 (by omega) (by push_cast; linarith) (by push_cast; linarith)
    exact ⟨_, brec_int tY0c _ 14 (by omega) (by rw [len_Y0c]; push_cast; omega) (by omega) _⟩
  rw [if_neg h3]
  obtain ⟨h4, h5⟩ := recip_sq (not_lt.mp h3)
  obtain ⟨⟨p, hp⟩, ⟨q, hq⟩⟩ := phase_ok tY0d len_Y0d h4 h5
  rw [hp, hq]
  exact ⟨_, rfl⟩

/-- **`zBesselY1`, likewise.** -/
theorem zBesselY1_ok (x : ℝ) : if 0 < x then ∃ y, zBesselY1 x = .ok y else zBesselY1 x = .fail := by
  unfold zBesselY1
  dsimp only
  by_cases h0 : 0 < x
  swap
  · rw [if_neg h0, if_pos (not_lt.mp h0)]
  rw [if_pos h0, if_neg (not_le.mpr h0)]
  by_cases h1 : x < 85 / 100
  · rw [if_pos h1, brec_int tY1a 8 8 (by omega) (by rw [len_Y1a]; norm_num) (by omega), brec_int tY1a 0 8 (by omega) (by rw [len_Y1a]; norm_num) (by omega)]
    exact ⟨_, rfl⟩
  rw [if_neg h1]
  by_cases h2 : x < 415 / 100
  · rw [if_pos h2]
    obtain ⟨h5, h6⟩ := hyper_range (c := 4) (x := x) 0 8 le_rfl h0 (by push_cast; nlinarith) (by push_cast; nlinarith)
    rw [brec_int tY1b _ 14 (by omega) (by rw [len_Y1b]; push_cast; omega) (by omega) _]
    exact ⟨_, rfl⟩
  rw [if_neg h2]
  by_cases h3 : x < 25 / 2
  · rw [if_pos h3]
    obtain ⟨h5, h6, _⟩ := toInt_range (t := x) 4 13 (by omega) (by push_cast; linarith) (by push_cast; linarith)
    exact ⟨_, brec_int tY1c _ 14 (by omega) (by rw [len_Y1c]; push_cast; omega) (by omega) _⟩
  rw [if_neg h3]
  obtain ⟨h4, h5⟩ := recip_sq (not_lt.mp h3)
  obtain ⟨⟨p, hp⟩, ⟨q, hq⟩⟩ := phase_ok tY1d len_Y1d h4 h5
  rw [hp, hq]
  exact ⟨_, rfl⟩

/-- **`zBesselI0` gives a number for every argument.** -/
theorem zBesselI0_ok (x : ℝ) : ∃ y, zBesselI0 x = .ok y := by
  unfold zBesselI0
  dsimp only
  by_cases h2 : |x| < 17 / 2
  · rw [if_pos h2]
    obtain ⟨h3, h4⟩ := sixteenth (abs_nonneg x) h2
    obtain ⟨h5, h6, _⟩ := toInt_lt5 h3 h4
    exact ⟨_, brec_int tI0a _ 13 (by omega) (by rw [len_I0a]; push_cast; omega) (by omega) _⟩
  rw [if_neg h2]
  by_cases h3 : |x| < 25 / 2
  · rw [if_pos h3]
    obtain ⟨h5, h6, _⟩ := toInt_range (t := |x|) 8 13 (by omega) (by push_cast; linarith) (by push_cast; linarith)
    exact ⟨_, brec_int tI0b _ 14 (by omega) (by rw [len_I0b]; push_cast; omega) (by omega) _⟩
  rw [if_neg h3]
  obtain ⟨h4, h5⟩ := recip_60 (not_lt.mp h3)
  obtain ⟨h6, h7, _⟩ := toInt_lt5 h4 h5
  rw [brec_int tI0c _ 9 (by omega) (by rw [len_I0c]; push_cast; omega) (by omega) _]
  exact ⟨_, rfl⟩

theorem besselI1_ok {x : ℝ} (h0 : 0 ≤ x) : ∃ y, besselI1 x = .ok y := by
  unfold besselI1
  dsimp only
  by_cases h2 : x < 17 / 2
  · rw [if_pos h2]
    obtain ⟨h3, h4⟩ := sixteenth h0 h2
    obtain ⟨h5, h6, _⟩ := toInt_lt5 h3 h4
    rw [brec_int tI1a _ 12 (by omega) (by rw [len_I1a]; push_cast; omega) (by omega) _]
    exact ⟨_, rfl⟩
  rw [if_neg h2]
  by_cases h3 : x < 25 / 2
  · rw [if_pos h3]
    obtain ⟨h5, h6, _⟩ := toInt_range (t := x) 8 13 (by omega) (by push_cast; linarith) (by push_cast; linarith)
    exact ⟨_, brec_int tI1b _ 14 (by omega) (by rw [len_I1b]; push_cast; omega) (by omega) _⟩
  rw [if_neg h3]
  obtain ⟨h4, h5⟩ := recip_60 (not_lt.mp h3)
  obtain ⟨h6, h7, _⟩ := toInt_lt5 h4 h5
  rw [brec_int tI1c _ 9 (by omega) (by rw [len_I1c]; push_cast; omega) (by omega) _]
  exact ⟨_, rfl⟩

/-- **`zBesselI1`, likewise.** -/
theorem zBesselI1_ok (x : ℝ) : ∃ y, zBesselI1 x = .ok y := by
  unfold zBesselI1
  by_cases h : x < 0
  · rw [if_pos h]
    obtain ⟨y, hy⟩ := besselI1_ok (x := -x) (by linarith)
    rw [hy]
    exact ⟨_, rfl⟩
  · rw [if_neg h]; exact besselI1_ok (not_lt.mp h)

/-- **`zBesselK0` gives a number for positive arguments and NaN for others.** -/
theorem zBesselK0_ok (x : ℝ) : if 0 < x then ∃ y, zBesselK0 x = .ok y else zBesselK0 x = .fail := by
  unfold zBesselK0
  dsimp only
  by_cases h0 : 0 < x
  swap
  · rw [if_neg h0, if_pos (not_lt.mp h0)]
  rw [if_pos h0, if_neg (not_le.mpr h0)]
  by_cases h1 : x < 86 / 100
  · rw [if_pos h1, brec_int tK0a 8 8 (by omega) (by rw [len_K0a]; norm_num) (by omega), brec_int tK0a 0 8 (by omega) (by rw [len_K0a]; norm_num) (by omega)]
    exact ⟨_, rfl⟩
  rw [if_neg h1]
  by_cases h2 : x < 415 / 100
  · rw [if_pos h2]
    obtain ⟨h5, h6⟩ := hyper_range (c := 5) (x := x) 0 8 le_rfl h0 (by push_cast; nlinarith) (by push_cast; nlinarith)
    exact ⟨_, brec_int tK0b _ 14 (by omega) (by rw [len_K0b]; push_cast; omega) (by omega) _⟩
  rw [if_neg h2]
  by_cases h3 : x < 25 / 2
  · rw [if_pos h3]
    obtain ⟨h5, h6, _⟩ := toInt_range (t := x) 4 13 (by omega) (by push_cast; linarith) (by push_cast; linarith)
    exact ⟨_, brec_int tK0c _ 15 (by omega) (by rw [len_K0c]; push_cast; omega) (by omega) _⟩
  rw [if_neg h3]
  obtain ⟨h4, h5⟩ := recip_60 (not_lt.mp h3)
  obtain ⟨h6, h7, _⟩ := toInt_lt5 h4 h5
  rw [brec_int tK0d _ 8 (by omega) (by rw [len_K0d]; push_cast; omega) (by omega) _]
  exact ⟨_, rfl⟩

/-- **`zBesselK1`, likewise.** -/
theorem zBesselK1_ok (x : ℝ) : if 0 < x then ∃ y, zBesselK1 x = .ok y else zBesselK1 x = .fail := by
  unfold zBesselK1
  dsimp only
  by_cases h1 : x < 80 / 100
  · rw [if_pos h1, brec_int tK1a 8 8 (by omega) (by rw [len_K1a]; norm_num) (by omega), brec_int tK1a 0 8 (by omega) (by rw [len_K1a]; norm_num) (by omega)]
    by_cases h0 : 0 < x
    · rw [if_pos h0, Res.bind, Res.bind, if_neg (not_le.mpr h0)]
      exact ⟨_, rfl⟩
    · rw [if_neg h0, Res.bind, Res.bind, if_pos (not_lt.mp h0)]
  have h0 : 0 < x := by linarith
  rw [if_pos h0, if_neg h1]
  by_cases h2 : x < 55 / 10
  · rw [if_pos h2]
    obtain ⟨h5, h6⟩ := hyper_range (c := 3) (x := x) 0 8 le_rfl h0 (by push_cast; nlinarith) (by push_cast; nlinarith)
    rw [brec_int tK1b _ 15 (by omega) (by rw [len_K1b]; push_cast; omega) (by omega) _]
    exact ⟨_, rfl⟩
  rw [if_neg h2]
  by_cases h3 : x < 25 / 2
  · rw [if_pos h3]
    obtain ⟨h5, h6, _⟩ := toInt_range (t := x) 5 13 (by omega) (by push_cast; linarith) (by push_cast; linarith)
    exact ⟨_, brec_int tK1c _ 15 (by omega) (by rw [len_K1c]; push_cast; omega) (by omega) _⟩
  rw [if_neg h3]
  obtain ⟨h4, h5⟩ := recip_60 (not_lt.mp h3)
  obtain ⟨h6, h7, _⟩ := toInt_lt5 h4 h5
  rw [brec_int tK1d _ 8 (by omega) (by rw [len_K1d]; push_cast; omega) (by omega) _]
  exact ⟨_, rfl⟩

/-! ## Parity -/

theorem zBesselJ0_even (x : ℝ) : zBesselJ0 (-x) = zBesselJ0 x := by
  unfold zBesselJ0; rw [abs_neg]

theorem zBesselI0_even (x : ℝ) : zBesselI0 (-x) = zBesselI0 x := by
  unfold zBesselI0; rw [abs_neg]

theorem besselJ1_zero : besselJ1 0 = .ok 0 := by
  unfold besselJ1
  rw [if_pos one_pos, brec_int tJ1a 0 8 le_rfl (by rw [len_J1a]; norm_num) (by omega)]
  show Res.ok _ = _
  rw [mul_zero]

theorem besselI1_zero : besselI1 0 = .ok 0 := by
  unfold besselI1
  dsimp only
  rw [if_pos (by norm_num)]
  obtain ⟨h5, h6, _⟩ := toInt_lt5 (t := 0 * 0 * (1 / 16)) (by norm_num) (by norm_num)
  rw [brec_int tI1a _ 12 (by omega) (by rw [len_I1a]; push_cast; omega) (by omega)]
  show Res.ok _ = _
  rw [mul_zero]

/-- The negative of a result. -/
noncomputable def negate (r : Res ℝ) : Res ℝ := r.bind fun y => .ok (-y)

theorem zBesselJ1_odd (x : ℝ) : zBesselJ1 (-x) = negate (zBesselJ1 x) := by
  unfold zBesselJ1 negate
  rcases lt_trichotomy x 0 with h | rfl | h
  · rw [if_neg (by linarith), if_pos h]
    obtain ⟨y, hy⟩ := besselJ1_ok (x := -x) (by linarith)
    rw [hy]
    simp [Res.bind]
  · rw [neg_zero, if_neg (lt_irrefl _), besselJ1_zero]
    simp [Res.bind]
  · rw [if_pos (by linarith), if_neg (by linarith), neg_neg]

theorem zBesselI1_odd (x : ℝ) : zBesselI1 (-x) = negate (zBesselI1 x) := by
  unfold zBesselI1 negate
  rcases lt_trichotomy x 0 with h | rfl | h
  · rw [if_neg (by linarith), if_pos h]
    obtain ⟨y, hy⟩ := besselI1_ok (x := -x) (by linarith)
    rw [hy]
    simp [Res.bind]
  · rw [neg_zero, if_neg (lt_irrefl _), besselI1_zero]
    simp [Res.bind]
  · rw [if_pos (by linarith), if_neg (by linarith), neg_neg]

theorem sign_neg {x : ℝ} (hx : x ≠ 0) (n : Nat) (y : ℝ) : (if -x < 0 ∧ n % 2 = 1 then -y else y) = (if n % 2 = 1 then -1 else 1) * if x < 0 ∧ n % 2 = 1 then -y else y := by
  by_cases hn : n % 2 = 1
  · rcases lt_or_gt_of_ne hx with h | h
    · rw [if_neg (by rintro ⟨h1, _⟩; linarith), if_pos hn, if_pos ⟨h, hn⟩]; ring
    · rw [if_pos ⟨by linarith, hn⟩, if_pos hn, if_neg (by rintro ⟨h1, _⟩; linarith)]; ring
  · rw [if_neg (fun h => hn h.2), if_neg hn, if_neg (fun h => hn h.2), one_mul]

/-- The parity of order `n`. -/
def parity (n : Int) : ℝ := if n.toNat % 2 = 1 then -1 else 1

/-- **`zBesselJ` of an even order is even and of an odd order odd**, exactly. -/
theorem zBesselJ_parity (tol : ℝ) (n : Int) (x : ℝ) : zBesselJ tol n (-x) = (zBesselJ tol n x).bind fun y => .ok (parity n * y) := by
  unfold zBesselJ parity
  by_cases h0 : n < 0
  · rw [if_pos h0, if_pos h0]; rfl
  rw [if_neg h0, if_neg h0]
  by_cases h1 : n = 0
  · rw [if_pos h1, if_pos h1, zBesselJ0_even]
    obtain ⟨y, hy⟩ := zBesselJ0_ok x
    subst h1
    rw [hy]; simp [Res.bind]
  rw [if_neg h1, if_neg h1]
  by_cases h2 : n = 1
  · rw [if_pos h2, if_pos h2, zBesselJ1_odd]
    obtain ⟨y, hy⟩ := zBesselJ1_ok x
    subst h2
    rw [hy]; simp [Res.bind, negate]
  rw [if_neg h2, if_neg h2, abs_neg]
  by_cases h3 : |x| < tol
  · rw [if_pos h3, if_pos h3]; simp [Res.bind]
  rw [if_neg h3, if_neg h3]
  dsimp only
  by_cases h4 : |x| = 0
  · rw [if_pos h4, if_pos h4]; rfl
  rw [if_neg h4, if_neg h4]
  have hx : x ≠ 0 := fun h => h4 (by rw [h, abs_zero])
  by_cases h5 : |x| > n.toNat
  · rw [if_pos h5, if_pos h5]
    obtain ⟨y0, e0⟩ := zBesselJ0_ok |x|
    obtain ⟨y1, e1⟩ := zBesselJ1_ok |x|
    rw [e0, e1]
    show Res.ok _ = Res.ok _
    rw [sign_neg hx]
  · rw [if_neg h5, if_neg h5]
    by_cases h6 : 2 * (downJ (2 / |x|) n.toNat (2 * ((n.toNat + Nat.sqrt (40 * n.toNat)) / 2))).s - (downJ (2 / |x|) n.toNat (2 * ((n.toNat + Nat.sqrt (40 * n.toNat)) / 2))).j1 = 0
    · rw [if_pos h6, if_pos h6]; rfl
    · rw [if_neg h6, if_neg h6, sign_neg hx]; rfl

/-- **`zBesselI` likewise.** -/
theorem zBesselI_parity (tol : ℝ) (n : Int) (x : ℝ) : zBesselI tol n (-x) = (zBesselI tol n x).bind fun y => .ok (parity n * y) := by
  unfold zBesselI parity
  by_cases h0 : n < 0
  · rw [if_pos h0, if_pos h0]; rfl
  rw [if_neg h0, if_neg h0]
  by_cases h1 : n = 0
  · rw [if_pos h1, if_pos h1, zBesselI0_even]
    obtain ⟨y, hy⟩ := zBesselI0_ok x
    subst h1
    rw [hy]; simp [Res.bind]
  rw [if_neg h1, if_neg h1]
  by_cases h2 : n = 1
  · rw [if_pos h2, if_pos h2, zBesselI1_odd]
    obtain ⟨y, hy⟩ := zBesselI1_ok x
    subst h2
    rw [hy]; simp [Res.bind, negate]
  rw [if_neg h2, if_neg h2, abs_neg]
  by_cases h3 : |x| < tol
  · rw [if_pos h3, if_pos h3]; simp [Res.bind]
  rw [if_neg h3, if_neg h3]
  dsimp only
  by_cases h4 : |x| = 0
  · rw [if_pos h4, if_pos h4]; rfl
  rw [if_neg h4, if_neg h4, zBesselI0_even]
  have hx : x ≠ 0 := fun h => h4 (by rw [h, abs_zero])
  by_cases h5 : (downI (2 / |x|) n.toNat (2 * (n.toNat + Nat.sqrt (40 * n.toNat)))).2.1 = 0
  · rw [if_pos h5, if_pos h5]; rfl
  · rw [if_neg h5, if_neg h5]
    obtain ⟨y0, e0⟩ := zBesselI0_ok x
    rw [e0]
    show Res.ok _ = Res.ok _
    rw [sign_neg hx]

/-! ## Recurrences upwards -/

/-- The sequence `y (k+1) = k a y k + σ y (k-1)`. -/
def upSeq {K : Type*} [Field K] (sg ax y0 y1 : K) : Nat → K
  | 0 => y0
  | 1 => y1
  | k + 2 => (k + 1 : ℕ) * ax * upSeq sg ax y0 y1 (k + 1) + sg * upSeq sg ax y0 y1 k

theorem upward_seq {K : Type*} [Field K] (sg ax y0 y1 : K) (n : Nat) (hn : 1 ≤ n) : upward sg ax n y0 y1 = (upSeq sg ax y0 y1 (n - 1), upSeq sg ax y0 y1 n) :=
  forUp_inv (lo := 1) (hi := n) (fun i (s : K × K) => (s.2, i * ax * s.2 + sg * s.1)) (y0, y1)
    (fun i s => s = (upSeq sg ax y0 y1 (i - 1), upSeq sg ax y0 y1 i)) hn rfl (by
      rintro i t h1 h2 rfl
      obtain ⟨j, rfl⟩ : ∃ j, i = j + 1 := ⟨i - 1, by omega⟩
      rfl)

/-- Above the order, `zBesselJ` is the sequence from `zBesselJ0` and `zBesselJ1`. -/
theorem zBesselJ_upward {tol x : ℝ} (hx : 0 < x) (htol : tol ≤ x) (n : Nat) (hn : (n : ℝ) < x) : ∃ y0 y1, zBesselJ0 x = .ok y0 ∧ zBesselJ1 x = .ok y1 ∧
    zBesselJ tol n x = .ok (upSeq (-1) (2 / x) y0 y1 n) := by
  obtain ⟨y0, e0⟩ := zBesselJ0_ok x
  obtain ⟨y1, e1⟩ := zBesselJ1_ok x
  refine ⟨y0, y1, e0, e1, ?_⟩
  unfold zBesselJ
  rw [if_neg (by omega)]
  by_cases h0 : (n : Int) = 0
  · rw [if_pos h0]
    obtain rfl : n = 0 := by exact_mod_cast h0
    exact e0
  rw [if_neg h0]
  by_cases h1 : (n : Int) = 1
  · rw [if_pos h1]
    obtain rfl : n = 1 := by exact_mod_cast h1
    exact e1
  rw [if_neg h1, abs_of_pos hx, if_neg (not_lt.mpr htol)]
  dsimp only
  rw [if_neg hx.ne', Int.toNat_natCast, if_pos hn, e0, e1]
  show Res.ok _ = _
  rw [if_neg (fun h => absurd h.1 (not_lt.mpr hx.le)), upward_seq _ _ _ _ _ (by omega)]

/-- **The recurrence of `zBesselJ`** holds exactly among the orders below the argument. -/
theorem zBesselJ_recurrence {tol x : ℝ} (hx : 0 < x) (htol : tol ≤ x) (n : Nat) (hn : ((n + 2 : ℕ) : ℝ) < x) :
    ∃ a b c, zBesselJ tol n x = .ok a ∧ zBesselJ tol (n + 1 : ℕ) x = .ok b ∧ zBesselJ tol (n + 2 : ℕ) x = .ok c ∧ c = 2 * (n + 1) / x * b - a := by
  have h1 : ((n + 1 : ℕ) : ℝ) < x := lt_trans (by push_cast; linarith) hn
  have h0 : (n : ℝ) < x := lt_trans (by push_cast; linarith) hn
  obtain ⟨y0, y1, e0, e1, ha⟩ := zBesselJ_upward hx htol n h0
  obtain ⟨y0', y1', e0', e1', hb⟩ := zBesselJ_upward hx htol (n + 1) h1
  obtain ⟨y0'', y1'', e0'', e1'', hc⟩ := zBesselJ_upward hx htol (n + 2) hn
  rw [e0] at e0' e0''
  rw [e1] at e1' e1''
  cases e0'; cases e0''; cases e1'; cases e1''
  refine ⟨_, _, _, ha, hb, hc, ?_⟩
  rw [upSeq]
  push_cast
  field_simp
  ring

theorem zBesselY_upward {x : ℝ} (hx : 0 < x) (n : Nat) : ∃ y0 y1, zBesselY0 x = .ok y0 ∧ zBesselY1 x = .ok y1 ∧ zBesselY n x = .ok (upSeq (-1) (2 / x) y0 y1 n) := by
  obtain ⟨y0, e0⟩ : ∃ y, zBesselY0 x = .ok y := by have := zBesselY0_ok x; rwa [if_pos hx] at this
  obtain ⟨y1, e1⟩ : ∃ y, zBesselY1 x = .ok y := by have := zBesselY1_ok x; rwa [if_pos hx] at this
  refine ⟨y0, y1, e0, e1, ?_⟩
  unfold zBesselY
  rw [if_neg (by omega)]
  by_cases h0 : (n : Int) = 0
  · rw [if_pos h0]
    obtain rfl : n = 0 := by exact_mod_cast h0
    exact e0
  rw [if_neg h0]
  by_cases h1 : (n : Int) = 1
  · rw [if_pos h1]
    obtain rfl : n = 1 := by exact_mod_cast h1
    exact e1
  rw [if_neg h1, e0, e1]
  show Res.ok _ = _
  rw [Int.toNat_natCast, upward_seq _ _ _ _ _ (by omega)]

/-- **The recurrence of `zBesselY`**, for every positive argument and every order. -/
theorem zBesselY_recurrence {x : ℝ} (hx : 0 < x) (n : Nat) :
    ∃ a b c, zBesselY n x = .ok a ∧ zBesselY (n + 1 : ℕ) x = .ok b ∧ zBesselY (n + 2 : ℕ) x = .ok c ∧ c = 2 * (n + 1) / x * b - a := by
  obtain ⟨y0, y1, e0, e1, ha⟩ := zBesselY_upward hx n
  obtain ⟨y0', y1', e0', e1', hb⟩ := zBesselY_upward hx (n + 1)
  obtain ⟨y0'', y1'', e0'', e1'', hc⟩ := zBesselY_upward hx (n + 2)
  rw [e0] at e0' e0''
  rw [e1] at e1' e1''
  cases e0'; cases e0''; cases e1'; cases e1''
  refine ⟨_, _, _, ha, hb, hc, ?_⟩
  rw [upSeq]
  push_cast
  field_simp
  ring

theorem zBesselK_upward {x : ℝ} (hx : 0 < x) (n : Nat) : ∃ y0 y1, zBesselK0 x = .ok y0 ∧ zBesselK1 x = .ok y1 ∧ zBesselK n x = .ok (upSeq 1 (2 / x) y0 y1 n) := by
  obtain ⟨y0, e0⟩ : ∃ y, zBesselK0 x = .ok y := by have := zBesselK0_ok x; rwa [if_pos hx] at this
  obtain ⟨y1, e1⟩ : ∃ y, zBesselK1 x = .ok y := by have := zBesselK1_ok x; rwa [if_pos hx] at this
  refine ⟨y0, y1, e0, e1, ?_⟩
  unfold zBesselK
  rw [if_neg (by omega)]
  by_cases h0 : (n : Int) = 0
  · rw [if_pos h0]
    obtain rfl : n = 0 := by exact_mod_cast h0
    exact e0
  rw [if_neg h0]
  by_cases h1 : (n : Int) = 1
  · rw [if_pos h1]
    obtain rfl : n = 1 := by exact_mod_cast h1
    exact e1
  rw [if_neg h1, e0, e1]
  show Res.ok _ = _
  rw [Int.toNat_natCast, upward_seq _ _ _ _ _ (by omega)]

/-- **The recurrence of `zBesselK`**, for every positive argument and every order. -/
theorem zBesselK_recurrence {x : ℝ} (hx : 0 < x) (n : Nat) :
    ∃ a b c, zBesselK n x = .ok a ∧ zBesselK (n + 1 : ℕ) x = .ok b ∧ zBesselK (n + 2 : ℕ) x = .ok c ∧ c = 2 * (n + 1) / x * b + a := by
  obtain ⟨y0, y1, e0, e1, ha⟩ := zBesselK_upward hx n
  obtain ⟨y0', y1', e0', e1', hb⟩ := zBesselK_upward hx (n + 1)
  obtain ⟨y0'', y1'', e0'', e1'', hc⟩ := zBesselK_upward hx (n + 2)
  rw [e0] at e0' e0''
  rw [e1] at e1' e1''
  cases e0'; cases e0''; cases e1'; cases e1''
  refine ⟨_, _, _, ha, hb, hc, ?_⟩
  rw [upSeq]
  push_cast
  field_simp

/-! ## Recurrences downwards -/

/-- What a recurrence downwards from `m` follows: the sequence with the values 0 and 1 at `m+1` and `m`. -/
structure IsDown {K : Type*} [Field K] (sg ax : K) (m : Nat) (p : Nat → K) : Prop where
  zero : p (m + 1) = 0
  one : p m = 1
  step : ∀ k, 1 ≤ k → k ≤ m → p (k - 1) = k * ax * p k + sg * p (k + 1)

/-- That sequence, from the top. -/
def top {K : Type*} [Field K] (sg ax : K) (m : Nat) : Nat → K
  | 0 => 0
  | 1 => 1
  | j + 2 => (m - j : ℕ) * ax * top sg ax m (j + 1) + sg * top sg ax m j

def backSeq {K : Type*} [Field K] (sg ax : K) (m k : Nat) : K := top sg ax m (m + 1 - k)

theorem backSeq_isDown {K : Type*} [Field K] (sg ax : K) (m : Nat) : IsDown sg ax m (backSeq sg ax m) := by
  refine ⟨?_, ?_, fun k h1 h2 => ?_⟩
  · unfold backSeq; rw [Nat.sub_self]; rfl
  · unfold backSeq; rw [show m + 1 - m = 1 by omega]; rfl
  · unfold backSeq
    rw [show m + 1 - (k - 1) = (m - k) + 2 by omega, show m + 1 - k = (m - k) + 1 by omega, show m + 1 - (k + 1) = m - k by omega]
    show ((m - (m - k) : ℕ) : K) * ax * _ + _ = _
    rw [show m - (m - k) = k by omega]

theorem downI_spec {K : Type*} [Field K] (ax : K) (n m : Nat) (h1 : 1 ≤ n) (h2 : n ≤ m) :
    downI ax n m = (backSeq 1 ax m 1, backSeq 1 ax m 0, backSeq 1 ax m n) := by
  have hd := backSeq_isDown (1 : K) ax m
  have := forDown_inv (lo := 1) (hi := m + 1) (fun i (d : K × K × K) => (d.2.1, (i : K) * ax * d.2.1 + d.1, if i = n then d.2.1 else d.2.2)) (0, 1, 0)
    (fun i d => d.1 = backSeq 1 ax m i ∧ d.2.1 = backSeq 1 ax m (i - 1) ∧ (i ≤ n → d.2.2 = backSeq 1 ax m n)) (by omega)
    ⟨hd.zero.symm, by rw [Nat.add_sub_cancel]; exact hd.one.symm, fun h => absurd h (by omega)⟩
    (by
      rintro i ⟨a, b, c⟩ h3 h4 ⟨h5, h6, h7⟩
      dsimp only at h5 h6 h7 ⊢
      rw [Nat.add_sub_cancel] at h6
      refine ⟨h6, ?_, fun h => ?_⟩
      · rw [hd.step i h3 (by omega), h5, h6]; ring
      · by_cases e : i = n
        · rw [if_pos e, h6, e]
        · rw [if_neg e]; exact h7 (by omega))
  unfold downI
  refine Prod.ext this.1 (Prod.ext ?_ (this.2.2 h1))
  exact this.2.1

theorem downJ_spec {K : Type*} [Field K] (ax : K) (n m : Nat) (h1 : 1 ≤ n) (h2 : n ≤ m) (hm : m % 2 = 0) :
    (downJ ax n m).ret = backSeq (-1) ax m n ∧ 2 * (downJ ax n m).s - (downJ ax n m).j1 = backSeq (-1) ax m 0 + 2 * ∑ k ∈ Finset.Ico 1 (m / 2), backSeq (-1) ax m (2 * k) := by
  have hd := backSeq_isDown (-1 : K) ax m
  have := forDown_inv (lo := 1) (hi := m + 1) (fun i (d : Down K) =>
    let j := i * ax * d.j1 - d.j0
    { j0 := d.j1, j1 := j, s := if d.sw then d.s + j else d.s, sw := !d.sw, ret := if i = n then d.j1 else d.ret }) (⟨0, 1, 0, false, 0⟩ : Down K)
    (fun i d => d.j0 = backSeq (-1) ax m i ∧ d.j1 = backSeq (-1) ax m (i - 1) ∧ (i ≤ n → d.ret = backSeq (-1) ax m n) ∧ (d.sw = decide (i % 2 = 0)) ∧
      d.s = ∑ k ∈ Finset.Ico (i / 2) (m / 2), backSeq (-1) ax m (2 * k)) (by omega)
    ⟨hd.zero.symm, by rw [Nat.add_sub_cancel]; exact hd.one.symm, fun h => absurd h (by omega), by simp; omega, by
      rw [Finset.Ico_eq_empty (by omega)]; rfl⟩
    (by
      rintro i ⟨a, b, s, w, c⟩ h3 h4 ⟨h5, h6, h7, h8, h9⟩
      dsimp only at h5 h6 h7 h8 h9 ⊢
      rw [Nat.add_sub_cancel] at h6
      have hj : (i : K) * ax * b - a = backSeq (-1) ax m (i - 1) := by rw [hd.step i h3 (by omega), h5, h6]; ring
      refine ⟨h6, hj, fun h => ?_, ?_, ?_⟩
      · by_cases e : i = n
        · rw [if_pos e, h6, e]
        · rw [if_neg e]; exact h7 (by omega)
      · rw [h8]
        by_cases e : i % 2 = 0
        · rw [decide_eq_false (by omega : ¬ (i + 1) % 2 = 0), decide_eq_true e]; rfl
        · rw [decide_eq_true (by omega : (i + 1) % 2 = 0), decide_eq_false e]; rfl
      · rw [h8, hj, h9]
        by_cases e : i % 2 = 0
        · rw [decide_eq_false (by omega : ¬ (i + 1) % 2 = 0), if_neg (by simp), show (i + 1) / 2 = i / 2 by omega]
        · rw [decide_eq_true (by omega : (i + 1) % 2 = 0), if_pos rfl, show (i + 1) / 2 = i / 2 + 1 by omega,
            Finset.sum_eq_sum_Ico_succ_bot (show i / 2 < m / 2 by omega), show 2 * (i / 2) = i - 1 by omega, add_comm])
  obtain ⟨_, h4, h5, _, h7⟩ := this
  refine ⟨h5 h1, ?_⟩
  unfold downJ
  rw [h4, h7]
  rcases Nat.eq_zero_or_pos (m / 2) with h | h
  · omega
  · rw [show (1 : Nat) / 2 = 0 from rfl, Finset.sum_eq_sum_Ico_succ_bot h]
    ring

theorem start_ge (n : Nat) (hn : 1 ≤ n) : n ≤ 2 * ((n + Nat.sqrt (40 * n)) / 2) := by
  have : 1 ≤ Nat.sqrt (40 * n) := by rw [Nat.le_sqrt]; omega
  omega

/-- **Up to the order, `zBesselJ` is Miller's method**: the sequence that the recurrence gives from an order above, divided by the sum that is one for the Bessel functions. -/
theorem zBesselJ_miller {tol x : ℝ} (hx : 0 < x) (htol : tol ≤ x) (n : Nat) (hn2 : 2 ≤ n) (hn : x ≤ n) : ∃ m p, n ≤ m ∧ m % 2 = 0 ∧ IsDown (-1) (2 / x) m p ∧
    (p 0 + 2 * ∑ k ∈ Finset.Ico 1 (m / 2), p (2 * k) ≠ 0 → zBesselJ tol n x = .ok (p n / (p 0 + 2 * ∑ k ∈ Finset.Ico 1 (m / 2), p (2 * k)))) := by
  refine ⟨2 * ((n + Nat.sqrt (40 * n)) / 2), backSeq (-1) (2 / x) (2 * ((n + Nat.sqrt (40 * n)) / 2)), start_ge n (by omega), by omega, backSeq_isDown _ _ _, fun h => ?_⟩
  obtain ⟨h1, h2⟩ := downJ_spec (2 / x) n (2 * ((n + Nat.sqrt (40 * n)) / 2)) (by omega) (start_ge n (by omega)) (by omega)
  unfold zBesselJ
  rw [if_neg (by omega), if_neg (by omega), if_neg (by omega), abs_of_pos hx, if_neg (not_lt.mpr htol)]
  dsimp only
  rw [if_neg hx.ne', Int.toNat_natCast, if_neg (not_lt.mpr hn), h2, if_neg h, if_neg (fun h => absurd h.1 (not_lt.mpr hx.le)), h1]

theorem IsDown.pos {K : Type*} [Field K] [LinearOrder K] [IsStrictOrderedRing K] {ax : K} (hax : 0 < ax) {m : Nat} {p : Nat → K} (h : IsDown 1 ax m p) :
    ∀ k, k ≤ m → 0 < p k := by
  have main : ∀ j, j ≤ m → 0 < p (m - j) ∧ 0 ≤ p (m - j + 1) := by
    intro j
    induction j with
    | zero => intro _; rw [Nat.sub_zero, h.zero, h.one]; exact ⟨one_pos, le_rfl⟩
    | succ j ih =>
      intro hj
      obtain ⟨h1, h2⟩ := ih (by omega)
      have e := h.step (m - j) (by omega) (by omega)
      rw [show m - j - 1 = m - (j + 1) by omega] at e
      have : (0 : K) < ((m - j : ℕ) : K) := by exact_mod_cast (by omega)
      rw [show m - (j + 1) + 1 = m - j by omega, e]
      exact ⟨by positivity, h1.le⟩
  intro k hk
  have := (main (m - k) (by omega)).1
  rwa [show m - (m - k) = k by omega] at this

/-- **`zBesselI` is Miller's method** with the quotient by the value at order zero, and gives a number for every argument. -/
theorem zBesselI_miller {tol x : ℝ} (hx : 0 < x) (htol : tol ≤ x) (n : Nat) (hn2 : 2 ≤ n) : ∃ p i0, IsDown 1 (2 / x) (2 * (n + Nat.sqrt (40 * n))) p ∧
    (∀ k, k ≤ 2 * (n + Nat.sqrt (40 * n)) → 0 < p k) ∧ zBesselI0 x = .ok i0 ∧ zBesselI tol n x = .ok (p n * (i0 / p 0)) := by
  obtain ⟨i0, e0⟩ := zBesselI0_ok x
  have hd := backSeq_isDown (1 : ℝ) (2 / x) (2 * (n + Nat.sqrt (40 * n)))
  have hp := hd.pos (by positivity)
  refine ⟨_, i0, hd, hp, e0, ?_⟩
  unfold zBesselI
  rw [if_neg (by omega), if_neg (by omega), if_neg (by omega), abs_of_pos hx, if_neg (not_lt.mpr htol)]
  dsimp only
  rw [if_neg hx.ne', Int.toNat_natCast, downI_spec _ _ _ (by omega) (by omega)]
  dsimp only
  rw [if_neg (hp 0 (Nat.zero_le _)).ne', e0]
  show Res.ok _ = _
  rw [if_neg (fun h => absurd h.1 (not_lt.mpr hx.le))]

end Zm.Bessel
