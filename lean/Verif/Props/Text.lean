import Verif.Model.Text
import Mathlib.Algebra.BigOperators.Intervals
import Mathlib.Tactic.Ring
import Mathlib.Tactic.Linarith
import Mathlib.Tactic.NormNum
import Mathlib.Algebra.Order.Ring.Rat

/-! # C191-C193: expressions, complex numbers, and what is printed and read back -/

set_option linter.unusedSectionVars false

namespace Zm.Text
open Zm Misc Finset
variable {K : Type*} [Field K] [LinearOrder K] [IsStrictOrderedRing K]

/-! ## Specification: the value of an expression -/

/-- An expression read from left to right: the sum of the terms that are complete, the sign of the current term, and its value so far. -/
structure Reading (K : Type*) where
  sum : K
  sign : K
  cur : Option K

/-- The value read so far. -/
def Reading.value (e : Reading K) : K := e.sum + e.sign * e.cur.getD 0

/-- A sign ends a term and begins the next; a number begins a term; the variable and its power multiply it. -/
def Reading.step (rnd : K → K) (t : K) (e : Reading K) : Piece K → Reading K
  | .plus => ⟨e.value, 1, none⟩
  | .minus => ⟨e.value, -1, none⟩
  | .num x => ⟨e.sum, e.sign, some (rnd x)⟩
  | .var => ⟨e.sum, e.sign, some (e.cur.getD 1 * t)⟩
  | .pow i => ⟨e.sum, e.sign, some (e.cur.getD 1 * t ^ (i - 1))⟩

/-- Reading a list of pieces. -/
def reading (rnd : K → K) (t : K) (l : List (Piece K)) : Reading K := l.foldl (Reading.step rnd t) ⟨0, 1, none⟩

/-- The value of an expression for the value `t` of the variable. -/
def exprValue (rnd : K → K) (t : K) (l : List (Piece K)) : K := (reading rnd t l).value

/-- A coefficient as it is printed: to ten digits, and as a bare sign if it is one or minus one up to the tolerance. -/
def printed (tol : K) (rnd : K → K) (x : K) : K :=
  if x = 0 then 0 else (if x < 0 then -1 else 1) * if zEqual (.fin |x|) (.fin 1) tol then 1 else rnd |x|

/-! ## Proof -/

theorem reading_append (rnd : K → K) (t : K) (l : List (Piece K)) (p : Piece K) : reading rnd t (l ++ [p]) = (reading rnd t l).step rnd t p := by
  unfold reading
  rw [List.foldl_append]
  rfl

theorem cat_fits {width : Piece K → Nat} {W : Nat} (hW : ∀ p, width p ≤ W) (p : Piece K) (s : Expr K) (h : (W : Int) < s.room) :
    (cat width p s).out = s.out ++ [p] ∧ s.room - W ≤ (cat width p s).room ∧ (cat width p s).coeff = s.coeff := by
  have := hW p
  unfold cat
  rw [if_pos (by omega)]
  exact ⟨rfl, by show s.room - W ≤ s.room - width p; omega, rfl⟩

/-- The state after the terms from `i` on, when there was room enough. -/
structure Done (rnd : K → K) (t tol : K) (W : Nat) (a : Nat → K) (dim i : Nat) (size : Int) (s : Expr K) : Prop where
  value : exprValue rnd t s.out = ∑ j ∈ Ico i (dim + 1), printed tol rnd (a j) * t ^ j
  room : size - 4 * W * ((dim + 1 - i : Nat) : Int) ≤ s.room
  fresh : i = dim + 1 → reading rnd t s.out = ⟨0, 1, none⟩

theorem sign_step {rnd : K → K} {t : K} {width : Piece K → Nat} {W : Nat} (hW : ∀ p, width p ≤ W) (a : Nat → K) (dim i : Nat) (hi : i ≤ dim) (s : Expr K) (h : (W : Int) < s.room)
    (hfresh : i = dim → reading rnd t s.out = ⟨0, 1, none⟩) :
    (a i = 0 → exprSign width a dim i s = s) ∧ s.room - W ≤ (exprSign width a dim i s).room ∧ (exprSign width a dim i s).coeff = s.coeff ∧
    (a i ≠ 0 → reading rnd t (exprSign width a dim i s).out = ⟨exprValue rnd t s.out, if a i < 0 then -1 else 1, none⟩) := by
  unfold exprSign
  by_cases h1 : i < dim ∧ 0 < a i
  · rw [if_pos h1]
    obtain ⟨c1, c2, c3⟩ := cat_fits hW .plus s h
    refine ⟨fun e => absurd h1.2 (by rw [e]; exact lt_irrefl _), c2, c3, fun _ => ?_⟩
    rw [c1, reading_append, if_neg (not_lt.2 h1.2.le)]
    rfl
  · rw [if_neg h1]
    by_cases h2 : a i < 0
    · rw [if_pos h2]
      obtain ⟨c1, c2, c3⟩ := cat_fits hW .minus s h
      refine ⟨fun e => absurd h2 (by rw [e]; exact lt_irrefl _), c2, c3, fun _ => ?_⟩
      rw [c1, reading_append, if_pos h2]
      rfl
    · rw [if_neg h2]
      refine ⟨fun _ => rfl, by omega, rfl, fun h0 => ?_⟩
      have h3 : 0 < a i := lt_of_le_of_ne (not_lt.1 h2) (Ne.symm h0)
      have h4 : i = dim := by
        by_contra hc
        exact h1 ⟨by omega, h3⟩
      rw [if_neg h2, exprValue, hfresh h4]
      simp [Reading.value]

theorem pow_step {rnd : K → K} {t : K} {width : Piece K → Nat} {W : Nat} (hW : ∀ p, width p ≤ W) (i : Nat) (s : Expr K) (h : (2 * W : Int) < s.room)
    (e : Reading K) (he : reading rnd t s.out = e) (hc : i = 0 → e.cur.isSome) :
    s.room - 2 * W ≤ (exprPow width i s).room ∧ (exprPow width i s).coeff = s.coeff ∧ (exprValue rnd t (exprPow width i s).out = e.sum + e.sign * (e.cur.getD 1 * t ^ i)) := by
  have hW0 : (0 : Int) ≤ W := Int.natCast_nonneg W
  unfold exprPow
  by_cases h0 : 0 < i
  · simp only [if_pos h0]
    obtain ⟨c1, c2, c3⟩ := cat_fits hW .var s (by omega)
    by_cases h1 : 1 < i
    · rw [if_pos h1]
      obtain ⟨d1, d2, d3⟩ := cat_fits hW (.pow i) (cat width .var s) (by omega)
      refine ⟨by omega, d3.trans c3, ?_⟩
      rw [exprValue, d1, reading_append, c1, reading_append, he]
      have : t ^ i = t * t ^ (i - 1) := by rw [← pow_succ']; congr 1; omega
      simp only [Reading.step, Reading.value, Option.getD_some]
      rw [this]
      ring
    · rw [if_neg h1]
      have hi1 : i = 1 := by omega
      refine ⟨by omega, c3, ?_⟩
      rw [exprValue, c1, reading_append, he, hi1]
      simp only [Reading.step, Reading.value, Option.getD_some, pow_one]
  · have hi0 : i = 0 := by omega
    simp only [if_neg h0]
    rw [if_neg (by omega)]
    refine ⟨by omega, rfl, ?_⟩
    obtain ⟨c, hcc⟩ := Option.isSome_iff_exists.1 (hc hi0)
    rw [exprValue, he, Reading.value, hcc, hi0, pow_zero]
    simp

/-- A term of a positive power. -/
theorem term_step {rnd : K → K} {t tol : K} {width : Piece K → Nat} {W : Nat} (hW : ∀ p, width p ≤ W) (a : Nat → K) (dim i : Nat) (hi : i ≤ dim) (size : Int) (s : Expr K)
    (hsize : (4 * W * (dim + 1) : Int) < size) (hs : Done rnd t tol W a dim (i+1) size s) (hpos : 0 < i ∨ a i = 0) :
    ∃ s', exprTerm tol width a dim i s = .ok s' ∧ Done rnd t tol W a dim i size s' ∧ s'.coeff = if a i = 0 then s.coeff else some |a i| := by
  have hroom := hs.room
  have hk : ((dim + 1 - i : Nat) : Int) = ((dim + 1 - (i+1) : Nat) : Int) + 1 := by omega
  have hW0 : (0 : Int) ≤ W := Int.natCast_nonneg W
  have hk2 : (4 * W : Int) * ((dim + 1 - (i+1) : Nat) : Int) ≤ 4 * W * dim := mul_le_mul_of_nonneg_left (by omega) (by omega)
  have hbig : (4 * W : Int) < s.room := by
    have : (4 * W * (dim + 1) : Int) = 4 * W * dim + 4 * W := by ring
    omega
  have hroom' : size - 4 * W * ((dim + 1 - i : Nat) : Int) = size - 4 * W * ((dim + 1 - (i+1) : Nat) : Int) - 4 * W := by rw [hk]; ring
  obtain ⟨g1, g2, g3, g4⟩ := sign_step (rnd := rnd) (t := t) hW a dim i hi s (by omega) (fun e => hs.fresh (by omega))
  have hsum : ∑ j ∈ Ico i (dim + 1), printed tol rnd (a j) * t ^ j = printed tol rnd (a i) * t ^ i + ∑ j ∈ Ico (i+1) (dim + 1), printed tol rnd (a j) * t ^ j :=
    sum_eq_sum_Ico_succ_bot (by omega) _
  unfold exprTerm
  by_cases h0 : a i = 0
  · rw [g1 h0]
    simp only [if_pos h0]
    refine ⟨s, rfl, ⟨?_, ?_, fun e => by omega⟩, rfl⟩
    · rw [hsum, ← hs.value, printed, if_pos h0]
      ring
    · omega
  · simp only [if_neg h0]
    have hi0 : i ≠ 0 := by rcases hpos with h | h; omega; exact absurd h h0
    generalize exprSign width a dim i s = s1 at g1 g2 g3 g4
    have g4 := g4 h0
    unfold exprNum
    rw [if_neg hi0]
    dsimp only
    by_cases hz : zEqual (.fin |a i|) (.fin 1) tol = true
    · rw [if_pos hz]
      obtain ⟨p1, p2, p3⟩ := pow_step hW i { s1 with coeff := some |a i| } (by show (2 * W : Int) < s1.room; omega) _ g4 (fun e => absurd e hi0)
      refine ⟨_, rfl, ⟨?_, ?_, fun e => by omega⟩, p2⟩
      · rw [p3, hsum, ← hs.value, printed, if_neg h0, if_pos hz]
        simp only [Option.getD_none]
        ring
      · have : s1.room - 2 * W ≤ _ := p1
        omega
    · rw [if_neg hz]
      obtain ⟨c1, c2, c3⟩ := cat_fits hW (.num |a i|) { s1 with coeff := some |a i| } (by show (W : Int) < s1.room; omega)
      have c2' : s1.room - W ≤ _ := c2
      obtain ⟨p1, p2, p3⟩ := pow_step (rnd := rnd) (t := t) hW i (cat width (.num |a i|) { s1 with coeff := some |a i| }) (by omega) _ (by rw [c1, reading_append, g4]) (fun e => absurd e hi0)
      refine ⟨_, rfl, ⟨?_, ?_, fun e => by omega⟩, by rw [p2, c3]⟩
      · rw [p3, hsum, ← hs.value, printed, if_neg h0, if_neg hz]
        simp only [Reading.step, Option.getD_some]
        ring
      · omega

/-- The least positive power with a coefficient that is not zero, from `i` on. -/
def Least (a : Nat → K) (dim i m : Nat) : Prop := i ≤ m ∧ m ≤ dim ∧ a m ≠ 0 ∧ ∀ j, i ≤ j → j < m → a j = 0

theorem forDownM_zero {σ : Type*} (hi : Nat) (f : Nat → σ → Res σ) (s : σ) : forDownM 0 (hi + 1) f s = (forDownM 1 (hi + 1) f s).bind (f 0) := by
  have main : ∀ (k lo : Nat) (s : σ), forDownNM (k + 1) lo f s = (forDownNM k (lo + 1) f s).bind (f lo) := by
    intro k
    induction k with
    | zero =>
      intro lo s
      simp only [forDownNM, Nat.add_zero, Res.bind]
      cases f lo s <;> rfl
    | succ k ih =>
      intro lo s
      have h1 : forDownNM (k + 1 + 1) lo f s = (f (lo + (k + 1)) s).bind (forDownNM (k + 1) lo f) := rfl
      have h2 : forDownNM (k + 1) (lo + 1) f s = (f (lo + 1 + k) s).bind (forDownNM k (lo + 1) f) := rfl
      have e : lo + 1 + k = lo + (k + 1) := by omega
      rw [h1, h2, e]
      cases f (lo + (k + 1)) s with
      | ok t => exact ih lo t
      | fail => rfl
      | ub => rfl
  exact main hi 0 s

theorem terms {rnd : K → K} {t tol : K} {width : Piece K → Nat} {W : Nat} (hW : ∀ p, width p ≤ W) (a : Nat → K) (dim : Nat) (size : Int)
    (hsize : (4 * W * (dim + 1) : Int) < size) :
    ∃ s, forDownM 1 (dim + 1) (exprTerm tol width a dim) ⟨[], size, none⟩ = .ok s ∧ Done rnd t tol W a dim 1 size s ∧
      (∀ m, Least a dim 1 m → s.coeff = some |a m|) ∧ ((∀ j, 1 ≤ j → j ≤ dim → a j = 0) → s.coeff = none) := by
  refine forDownM_ok _ _ (fun i s => Done rnd t tol W a dim i size s ∧
      (∀ m, Least a dim i m → s.coeff = some |a m|) ∧ ((∀ j, i ≤ j → j ≤ dim → a j = 0) → s.coeff = none)) (by omega) ?_ ?_
  · refine ⟨⟨?_, ?_, fun _ => rfl⟩, fun m hm => by have := hm.1; have := hm.2.1; omega, fun _ => rfl⟩
    · simp [exprValue, reading, Reading.value]
    · simp
  · intro i s hlo hi hs
    obtain ⟨h1, h2, h3⟩ := hs
    obtain ⟨s', e, d, hc⟩ := term_step hW a dim i (by omega) size s hsize h1 (Or.inl (by omega))
    refine ⟨s', e, d, fun m hm => ?_, fun h0 => ?_⟩
    · obtain ⟨m1, m2, m3, m4⟩ := hm
      by_cases him : i = m
      · subst him
        rw [hc, if_neg m3]
      · rw [hc, if_pos (m4 i le_rfl (by omega))]
        exact h2 m ⟨by omega, m2, m3, fun j hj hjm => m4 j (by omega) hjm⟩
    · rw [hc, if_pos (h0 i le_rfl (by omega))]
      exact h3 fun j hj hjd => h0 j (by omega) hjd

/-- C191, polynomials without a constant term: the expression has the value of the polynomial with the coefficients as printed, for every value of the variable, if there is room enough
(`W` bytes for every piece).  Missing: the constant term. -/
theorem zPexSExpr_partial (tol : K) (rnd : K → K) (width : Piece K → Nat) (W : Nat) (hW : ∀ p, width p ≤ W) (a : Nat → K) (dim : Nat) (size : Int)
    (hsize : (4 * W * (dim + 1) : Int) < size) (h0 : a 0 = 0) :
    ∃ s, zPexSExpr tol width a dim size = .ok s ∧ ∀ t, exprValue rnd t s.out = ∑ j ∈ range (dim + 1), printed tol rnd (a j) * t ^ j := by
  obtain ⟨s0, e0, -⟩ := terms (rnd := rnd) (t := (0:K)) (tol := tol) hW a dim size hsize
  have key : ∀ t, Done rnd t tol W a dim 1 size s0 := by
    intro t
    obtain ⟨s, e, d, -⟩ := terms (rnd := rnd) (t := t) (tol := tol) hW a dim size hsize
    rw [e0] at e
    cases e
    exact d
  obtain ⟨s', e', -, -⟩ := term_step hW a dim 0 (by omega) size s0 hsize (key 0) (Or.inr h0)
  refine ⟨s', by unfold zPexSExpr; rw [forDownM_zero, e0]; exact e', fun t => ?_⟩
  obtain ⟨s'', e'', d, -⟩ := term_step hW a dim 0 (by omega) size s0 hsize (key t) (Or.inr h0)
  rw [e'] at e''
  cases e''
  rw [d.value, range_eq_Ico]

/-- In exact arithmetic the expression is the polynomial. -/
theorem zPexSExpr_exact_partial (width : Piece K → Nat) (W : Nat) (hW : ∀ p, width p ≤ W) (a : Nat → K) (dim : Nat) (size : Int)
    (hsize : (4 * W * (dim + 1) : Int) < size) (h0 : a 0 = 0) :
    ∃ s, zPexSExpr 0 width a dim size = .ok s ∧ ∀ t, exprValue id t s.out = ∑ j ∈ range (dim + 1), a j * t ^ j := by
  obtain ⟨s, e, h⟩ := zPexSExpr_partial 0 id width W hW a dim size hsize h0
  refine ⟨s, e, fun t => ?_⟩
  rw [h t]
  refine sum_congr rfl fun j _ => ?_
  congr 1
  unfold printed
  by_cases h1 : a j = 0
  · rw [if_pos h1, h1]
  · rw [if_neg h1]
    have h2 : (if zEqual (.fin |a j|) (.fin 1) (0:K) = true then 1 else id |a j|) = |a j| := by
      split_ifs with h
      · simp only [zEqual, zIsTol, zero_mul, decide_eq_true_eq] at h
        have := abs_nonpos_iff.1 h
        linarith
      · rfl
    rw [h2]
    split_ifs with h3
    · rw [abs_of_neg h3]; ring
    · rw [abs_of_nonneg (not_lt.1 h3)]; ring

/-- C191 is violated by every polynomial with a constant term: what is printed for it is the absolute value of the coefficient of the least positive power that has one, with the sign
of the constant term. -/
theorem zPexSExpr_constant_violated (tol : K) (rnd : K → K) (width : Piece K → Nat) (W : Nat) (hW : ∀ p, width p ≤ W) (a : Nat → K) (dim : Nat) (size : Int)
    (hsize : (4 * W * (dim + 1) : Int) < size) (h0 : a 0 ≠ 0) (m : Nat) (hm : 1 ≤ m) (hmd : m ≤ dim) (ham : a m ≠ 0) (hlow : ∀ j, 1 ≤ j → j < m → a j = 0) :
    ∃ s, zPexSExpr tol width a dim size = .ok s ∧
      ∀ t, exprValue rnd t s.out = ∑ j ∈ Ico 1 (dim + 1), printed tol rnd (a j) * t ^ j + (if a 0 < 0 then -1 else 1) * rnd |a m| := by
  obtain ⟨s0, e0, -, hcf, -⟩ := terms (rnd := rnd) (t := (0:K)) (tol := tol) hW a dim size hsize
  have hcf := hcf m ⟨hm, hmd, ham, hlow⟩
  have key : ∀ t, Done rnd t tol W a dim 1 size s0 := by
    intro t
    obtain ⟨s, e, d, -⟩ := terms (rnd := rnd) (t := t) (tol := tol) hW a dim size hsize
    rw [e0] at e
    cases e
    exact d
  have hW0 : (0 : Int) ≤ W := Int.natCast_nonneg W
  have hbig : (4 * W : Int) < s0.room := by
    have := (key 0).room
    have h1 : ((dim + 1 - 1 : Nat) : Int) = dim := by omega
    rw [h1] at this
    have h2 : (4 * W * (dim + 1) : Int) = 4 * W * dim + 4 * W := by ring
    omega
  unfold zPexSExpr
  rw [forDownM_zero, e0]
  obtain ⟨g1, g2, g3, -⟩ := sign_step (rnd := rnd) (t := (0:K)) hW a dim 0 (by omega) s0 (by omega) (fun e => by omega)
  simp only [Res.bind]
  unfold exprTerm
  simp only [if_neg h0]
  unfold exprNum
  rw [if_pos rfl, g3, hcf]
  refine ⟨_, rfl, fun t => ?_⟩
  obtain ⟨-, -, -, g4⟩ := sign_step (rnd := rnd) (t := t) hW a dim 0 (by omega) s0 (by omega) (fun e => by omega)
  have g4 := g4 h0
  obtain ⟨c1, c2, c3⟩ := cat_fits hW (.num |a m|) (exprSign width a dim 0 s0) (by omega)
  obtain ⟨-, -, p3⟩ := pow_step (rnd := rnd) (t := t) hW 0 (cat width (.num |a m|) (exprSign width a dim 0 s0)) (by omega) _ (by rw [c1, reading_append, g4]) (fun _ => rfl)
  rw [p3, ← (key t).value]
  simp [Reading.step]

/-- A polynomial that is constant: the variable that is printed was never set. -/
theorem zPexSExpr_uninit_violated (tol : K) (width : Piece K → Nat) (W : Nat) (hW : ∀ p, width p ≤ W) (a : Nat → K) (dim : Nat) (size : Int)
    (hsize : (4 * W * (dim + 1) : Int) < size) (h0 : a 0 ≠ 0) (hz : ∀ j, 1 ≤ j → j ≤ dim → a j = 0) : zPexSExpr tol width a dim size = .ub := by
  obtain ⟨s0, e0, d, -, hcf⟩ := terms (rnd := id) (t := (0:K)) (tol := tol) hW a dim size hsize
  have hcf := hcf hz
  have hW0 : (0 : Int) ≤ W := Int.natCast_nonneg W
  unfold zPexSExpr
  rw [forDownM_zero, e0]
  simp only [Res.bind]
  unfold exprTerm
  simp only [if_neg h0]
  have hc : (exprSign width a dim 0 s0).coeff = none := by
    unfold exprSign cat
    split_ifs <;> exact hcf
  unfold exprNum
  rw [if_pos rfl, hc]
  rfl

/-- The bytes of a string without the null byte at its end. -/
def bytes (width : Piece K → Nat) (l : List (Piece K)) : Nat := (l.map width).sum

/-- C191, the string and the null byte at its end never need more than `size` bytes, whatever the polynomial and the lengths of the pieces. -/
theorem zPexSExpr_fits (tol : K) (width : Piece K → Nat) (a : Nat → K) (dim : Nat) (size : Int) (hsize : 0 < size) (s : Expr K) (h : zPexSExpr tol width a dim size = .ok s) :
    (bytes width s.out + 1 : Int) ≤ size := by
  have hcat : ∀ (p : Piece K) (s : Expr K), (bytes width s.out : Int) + s.room = size ∧ 0 < s.room →
      (bytes width (cat width p s).out : Int) + (cat width p s).room = size ∧ 0 < (cat width p s).room := by
    intro p s hs
    unfold cat
    split_ifs with hp
    · simp only [bytes, List.map_append, List.sum_append, List.map_cons, List.map_nil, List.sum_cons, List.sum_nil] at hs ⊢
      push_cast
      omega
    · exact hs
  have main : ∀ (k lo : Nat) (s s' : Expr K), ((bytes width s.out : Int) + s.room = size ∧ 0 < s.room) → forDownNM k lo (exprTerm tol width a dim) s = .ok s' →
      (bytes width s'.out : Int) + s'.room = size ∧ 0 < s'.room := by
    intro k
    induction k with
    | zero => intro lo s s' hs e; cases e; exact hs
    | succ k ih =>
      intro lo s s' hs e
      rw [forDownNM] at e
      cases h1 : exprTerm tol width a dim (lo + k) s with
      | fail => rw [h1] at e; cases e
      | ub => rw [h1] at e; cases e
      | ok s1 =>
        rw [h1] at e
        refine ih lo s1 s' ?_ e
        unfold exprTerm at h1
        have hs1 : (bytes width (exprSign width a dim (lo + k) s).out : Int) + (exprSign width a dim (lo + k) s).room = size ∧ 0 < (exprSign width a dim (lo + k) s).room := by
          unfold exprSign
          split_ifs
          · exact hcat _ _ hs
          · exact hcat _ _ hs
          · exact hs
        generalize exprSign width a dim (lo + k) s = s2 at h1 hs1
        dsimp only at h1
        by_cases h0 : a (lo + k) = 0
        · rw [if_pos h0] at h1
          cases h1
          exact hs1
        · rw [if_neg h0] at h1
          have hpow : ∀ s3 : Expr K, ((bytes width s3.out : Int) + s3.room = size ∧ 0 < s3.room) →
              (bytes width (exprPow width (lo + k) s3).out : Int) + (exprPow width (lo + k) s3).room = size ∧ 0 < (exprPow width (lo + k) s3).room := by
            intro s3 hs3
            unfold exprPow
            dsimp only
            split_ifs
            · exact hcat _ _ (hcat _ _ hs3)
            · exact hcat _ _ hs3
            · exact hcat _ _ hs3
            · exact hs3
          cases h2 : exprNum tol width a (lo + k) s2 with
          | fail => rw [h2] at h1; cases h1
          | ub => rw [h2] at h1; cases h1
          | ok s3 =>
            rw [h2] at h1
            cases h1
            refine hpow s3 ?_
            unfold exprNum at h2
            by_cases hi : lo + k = 0
            · rw [if_pos hi] at h2
              cases hc : s2.coeff with
              | none => rw [hc] at h2; cases h2
              | some c => rw [hc] at h2; cases h2; exact hcat _ _ hs1
            · rw [if_neg hi] at h2
              dsimp only at h2
              cases h2
              split_ifs
              · exact hs1
              · exact hcat _ _ hs1
  have := main (dim + 1 - 0) 0 ⟨[], size, none⟩ s ⟨by simp [bytes], hsize⟩ h
  omega

/-- 2 x^2 + 3 x is printed as it is, and 2 x^2 + 3 x + 5 as 2 x^2 + 3 x + 3. -/
example : ∃ s, zPexSExpr (0:ℚ) (fun _ => 10) (fun i => if i = 2 then 2 else if i = 1 then 3 else 0) 2 8192 = .ok s ∧ ∀ t, exprValue id t s.out = 2 * t ^ 2 + 3 * t := by
  obtain ⟨s, e, h⟩ := zPexSExpr_exact_partial (K := ℚ) (fun _ => 10) 10 (fun _ => le_rfl) (fun i => if i = 2 then 2 else if i = 1 then 3 else 0) 2 8192 (by norm_num) rfl
  refine ⟨s, e, fun t => ?_⟩
  rw [h t]
  norm_num [sum_range_succ]
  ring
example : ∃ s, zPexSExpr (0:ℚ) (fun _ => 10) (fun i => if i = 2 then 2 else if i = 1 then 3 else 5) 2 8192 = .ok s ∧ exprValue id 1 s.out = 2 + 3 + 3 := by
  obtain ⟨s, e, h⟩ := zPexSExpr_constant_violated (K := ℚ) 0 id (fun _ => 10) 10 (fun _ => le_rfl) (fun i => if i = 2 then 2 else if i = 1 then 3 else 5) 2 8192 (by norm_num) (by norm_num)
    1 (by norm_num) (by norm_num) (by norm_num) (by omega)
  refine ⟨s, e, ?_⟩
  rw [h 1]
  norm_num [sum_Ico_succ_top, printed, zEqual, zIsTol]

/-! ## Complex numbers -/

/-- A number as printed. -/
def Rnd (rnd : K → K) (x : K) : K := if x < 0 then -rnd |x| else rnd |x|

theorem fromImag_imPrint (rnd : K → K) (h1 : rnd 1 = 1) (re im : K) (him : im ≠ 0) : fromImag re (imPrint rnd im .plus) = (re, Rnd rnd im) := by
  unfold imPrint Rnd
  by_cases hp : 0 < im
  · rw [if_pos hp, if_neg (not_lt.2 hp.le)]
    by_cases ha : |im| = 1
    · rw [if_pos ha, ha, h1]; rfl
    · rw [if_neg ha]; rfl
  · have hn : im < 0 := lt_of_le_of_ne (not_lt.1 hp) him
    rw [if_neg hp, if_pos hn]
    by_cases ha : |im| = 1
    · rw [if_pos ha, ha, h1]; rfl
    · rw [if_neg ha]; rfl

theorem cstr_imPrint (rnd : K → K) (im : K) : cstr (imPrint rnd im .plus) = imPrint rnd im .plus := by
  unfold imPrint
  split_ifs <;> rfl

/-- C192, every complex number but those with a positive imaginary and no real part: the text that `zComplexFPrint` prints is read by `zComplexFromStr` as the number with both
parts rounded to ten digits. -/
theorem zComplex_roundtrip_partial (rnd : K → K) (h0 : rnd 0 = 0) (h1 : rnd 1 = 1) (re im : K) (h : ¬ (re = 0 ∧ 0 < im)) :
    zComplexFromStr (zComplexFPrint rnd (re, im)) = (Rnd rnd re, Rnd rnd im) := by
  unfold zComplexFPrint
  by_cases hre : re = 0
  · rw [if_pos hre]
    by_cases him : im = 0
    · rw [if_pos him]
      simp [zComplexFromStr, cstr, numToken, fromImag, Rnd, hre, him, h0]
    · have hn : im < 0 := lt_of_le_of_ne (not_lt.1 fun hp => h ⟨hre, hp⟩) him
      rw [if_neg him]
      have hR0 : Rnd rnd re = 0 := by simp [Rnd, hre, h0]
      unfold imPrint
      rw [if_neg (not_lt.2 hn.le), hR0, Rnd, if_pos hn]
      by_cases ha : |im| = 1
      · rw [if_pos ha, ha, h1]; rfl
      · rw [if_neg ha]; rfl
  · rw [if_neg hre]
    have key : ∀ tail : List (CTok K), cstr tail = tail → zComplexFromStr (numToks rnd re ++ tail) = fromImag (Rnd rnd re) tail := by
      intro tail ht
      unfold numToks Rnd
      split_ifs with hn
      · have e : cstr ([CTok.minus, CTok.mag (rnd |re|)] ++ tail) = CTok.minus :: CTok.mag (rnd |re|) :: tail := by
          show CTok.minus :: CTok.mag (rnd |re|) :: cstr tail = _
          rw [ht]
        unfold zComplexFromStr
        rw [e]
        rfl
      · have e : cstr ([CTok.mag (rnd |re|)] ++ tail) = CTok.mag (rnd |re|) :: tail := by
          show CTok.mag (rnd |re|) :: cstr tail = _
          rw [ht]
        unfold zComplexFromStr
        rw [e]
        rfl
    by_cases him : im = 0
    · simp only [if_pos him]
      rw [key [] rfl]
      simp [fromImag, numToken, Rnd, him, h0]
    · simp only [if_neg him]
      rw [key _ (cstr_imPrint rnd im), fromImag_imPrint rnd h1 _ _ him]

/-- C192 is violated by every positive multiple of the imaginary unit: a null character is printed before it, the string is empty, and zero is read. -/
theorem zComplex_roundtrip_violated (rnd : K → K) (im : K) (h : 0 < im) : zComplexFromStr (zComplexFPrint rnd (0, im)) = (0, 0) := by
  unfold zComplexFPrint imPrint
  rw [if_pos rfl, if_neg h.ne', if_pos h]
  simp [zComplexFromStr, cstr, numToken, fromImag]

example : zComplexFromStr (zComplexFPrint (id : ℚ → ℚ) (-3/2, -1)) = (-3/2, -1) := by
  have := zComplex_roundtrip_partial (id : ℚ → ℚ) rfl rfl (-3/2) (-1) (by norm_num)
  rw [this]
  norm_num [Rnd]
example : zComplexFromStr (zComplexFPrint (id : ℚ → ℚ) (0, 2)) = (0, 0) := zComplex_roundtrip_violated id 2 (by norm_num)

/-! ## Vectors, matrices, polynomials, sequences -/

theorem scanElems_print (skip : Bool) (rnd : K → K) (rest : List (Word K)) (v : Nat → K) (n : Nat) : ∀ (i : Nat) (u : Nat → K),
    ∃ u', scanElems skip n i u (((List.range n).map fun k => real rnd (v (i + k))) ++ rest) = (u', rest) ∧
      (∀ k, k < n → u' (i + k) = Rnd rnd (v (i + k))) ∧ ∀ k, k < i ∨ i + n ≤ k → u' k = u k := by
  induction n with
  | zero => intro i u; exact ⟨u, rfl, fun k hk => by omega, fun _ _ => rfl⟩
  | succ n ih =>
    intro i u
    obtain ⟨u', e, h1, h2⟩ := ih (i+1) (set1 u i (Rnd rnd (v i)))
    refine ⟨u', ?_, fun k hk => ?_, fun k hk => ?_⟩
    · rw [List.range_succ_eq_map, List.map_cons, List.map_map, List.cons_append]
      have e2 : ((fun k => real rnd (v (i + k))) ∘ Nat.succ) = fun k => real rnd (v (i + 1 + k)) := by
        funext k
        show real rnd (v (i + (k + 1))) = _
        congr 2
        omega
      rw [e2]
      exact e
    · by_cases h0 : k = 0
      · subst h0
        rw [h2 (i + 0) (Or.inl (by omega)), Nat.add_zero]
        exact set1_same _ _ _
      · have := h1 (k - 1) (by omega)
        have e3 : i + 1 + (k - 1) = i + k := by omega
        rwa [e3] at this
    · rw [h2 k (by omega)]
      exact set1_ne _ _ (by omega)

theorem scan_value (skip : Bool) (rnd : K → K) (rest : List (Word K)) (v : Nat → K) (n : Nat) (u : Nat → K) :
    ∃ u', scanElems skip n 0 u (valuePrint rnd n v ++ rest) = (u', rest) ∧ (∀ k, k < n → u' k = Rnd rnd (v k)) ∧ ∀ k, n ≤ k → u' k = u k := by
  obtain ⟨u', e, h1, h2⟩ := scanElems_print skip rnd rest v n 0 u
  simp only [Nat.zero_add] at e h1 h2
  exact ⟨u', e, h1, fun k hk => h2 k (Or.inr hk)⟩

/-- C193, a vector with the capacity of its size: what `zVecFPrint` prints is read back by `zVecFScan` as a vector of the same size with the elements rounded to ten digits, and what follows
in the file is left. -/
theorem zVec_roundtrip_partial (skip : Bool) (rnd : K → K) (size : Nat) (hs : 0 < size) (v : Nat → K) (rest : List (Word K)) :
    ∃ u, zVecFScan skip (zVecFPrint rnd size size v ++ rest) = (some (size, u), rest) ∧ ∀ k, k < size → u k = Rnd rnd (v k) := by
  obtain ⟨u, e, h1, -⟩ := scan_value skip rnd rest v size (fun _ => 0)
  refine ⟨u, ?_, h1⟩
  unfold zVecFPrint zVecFScan
  rw [if_neg (by simp)]
  simp only [List.cons_append, List.nil_append, zFInt]
  rw [if_neg (by omega), Int.toNat_natCast, e]

/-- C193 is violated by a vector with another capacity than its size, as `zVecResize` leaves it: the capacity that is printed behind the size is either taken for the first element, or it stops the
reading, and then all elements are zero. -/
theorem zVec_resized_violated (skip : Bool) (rnd : K → K) (cap size : Nat) (hs : 0 < size) (hc : cap ≠ size) (v : Nat → K) (rest : List (Word K)) :
    ∃ u, (zVecFScan skip (zVecFPrint rnd cap size v ++ rest)).1 = some (size, u) ∧ u 0 = if skip then (cap : K) else 0 := by
  obtain ⟨size, rfl⟩ : ∃ k, size = k + 1 := ⟨size - 1, by omega⟩
  unfold zVecFPrint zVecFScan
  rw [if_pos hc]
  simp only [List.cons_append, List.nil_append, zFInt]
  rw [if_neg (by omega), Int.toNat_natCast]
  refine ⟨_, rfl, ?_⟩
  cases skip with
  | false => simp [scanElems, zFDouble]
  | true =>
    have keep : ∀ (n i : Nat) (u : Nat → K) (w : List (Word K)), 0 < i → (scanElems true n i u w).1 0 = u 0 := by
      intro n
      induction n with
      | zero => intro i u w _; rfl
      | succ n ih =>
        intro i u w hi
        rw [scanElems]
        cases zFDouble true w with
        | none => rfl
        | some p =>
          show (scanElems true n (i+1) (set1 u i p.1) p.2).1 0 = _
          rw [ih (i+1) _ _ (by omega)]
          exact set1_ne _ _ (by omega)
    rw [scanElems]
    simp only [zFDouble, if_true]
    rw [keep _ _ _ _ (by omega)]
    simp [set1]

/-- C193, a file that ends early: the missing elements are zero, and a vector is returned nevertheless. -/
theorem zVec_short (skip : Bool) (rnd : K → K) (size n : Nat) (hn : n < size) (v : Nat → K) :
    ∃ u, zVecFScan skip (.int size :: valuePrint rnd n v) = (some (size, u), []) ∧ (∀ k, k < n → u k = Rnd rnd (v k)) ∧ ∀ k, n ≤ k → u k = 0 := by
  have split : ∀ (n m i : Nat) (u u' : Nat → K) (w : List (Word K)), scanElems skip n i u w = (u', []) → scanElems skip (n + m) i u w = (u', []) := by
    intro n
    induction n with
    | zero =>
      intro m i u u' w e
      cases e
      cases m <;> rfl
    | succ n ih =>
      intro m i u u' w e
      have : n + 1 + m = n + m + 1 := by omega
      rw [this, scanElems]
      rw [scanElems] at e
      cases h : zFDouble skip w with
      | none => rw [h] at e; exact e
      | some p => rw [h] at e; exact ih m (i+1) _ _ _ e
  obtain ⟨u, e, h1, h2⟩ := scan_value skip rnd [] v n (fun _ => 0)
  rw [List.append_nil] at e
  refine ⟨u, ?_, h1, h2⟩
  unfold zVecFScan
  simp only [zFInt]
  rw [if_neg (by omega), Int.toNat_natCast]
  have := split n (size - n) 0 _ _ _ e
  rw [show n + (size - n) = size by omega] at this
  rw [this]

/-- C193, matrices. -/
theorem zMat_roundtrip_partial (skip : Bool) (rnd : K → K) (row col : Nat) (hr : 0 < row) (hc : 0 < col) (m : Nat → Nat → K) (rest : List (Word K)) :
    ∃ u, zMatFScan skip (zMatFPrint rnd row col row col m ++ rest) = (some (row, col, u), rest) ∧ ∀ i j, i < row → j < col → u i j = Rnd rnd (m i j) := by
  have rows : ∀ (n i : Nat) (u : Nat → Nat → K), ∃ u', scanRows skip col n i u (((List.range n).flatMap fun k => valuePrint rnd col (m (i + k))) ++ rest) = (u', rest) ∧
      (∀ k, k < n → ∀ j, j < col → u' (i + k) j = Rnd rnd (m (i + k) j)) ∧ ∀ k, k < i → ∀ j, u' k j = u k j := by
    intro n
    induction n with
    | zero => intro i u; exact ⟨u, rfl, fun k hk => by omega, fun _ _ _ => rfl⟩
    | succ n ih =>
      intro i u
      obtain ⟨r, e, h1, -⟩ := scan_value skip rnd (((List.range n).flatMap fun k => valuePrint rnd col (m (i + 1 + k))) ++ rest) (m i) col (u i)
      obtain ⟨u', e', h1', h2'⟩ := ih (i+1) (fun a c => if a = i then r c else u a c)
      refine ⟨u', ?_, fun k hk j hj => ?_, fun k hk j => ?_⟩
      · rw [List.range_succ_eq_map, List.flatMap_cons, List.flatMap_map]
        have e2 : (List.range n).flatMap (fun k => valuePrint rnd col (m (i + Nat.succ k))) = (List.range n).flatMap fun k => valuePrint rnd col (m (i + 1 + k)) := by
          congr 1
          funext k
          congr 2
          omega
        rw [e2, List.append_assoc, scanRows, Nat.add_zero i, e]
        exact e'
      · by_cases h0 : k = 0
        · subst h0
          rw [Nat.add_zero, h2' i (by omega) j, if_pos rfl]
          exact h1 j hj
        · have := h1' (k - 1) (by omega) j hj
          have e3 : i + 1 + (k - 1) = i + k := by omega
          rwa [e3] at this
      · rw [h2' k (by omega) j, if_neg (by omega)]
  obtain ⟨u, e, h1, -⟩ := rows row 0 (fun _ _ => 0)
  simp only [Nat.zero_add] at e h1
  refine ⟨u, ?_, fun i j hi hj => h1 i hi j hj⟩
  unfold zMatFPrint zMatFScan
  rw [if_neg (by simp), if_neg (by simp)]
  simp only [List.cons_append, List.nil_append, zFInt]
  rw [if_neg (by omega), Int.toNat_natCast, Int.toNat_natCast, e]

/-- C193 is violated by a matrix with more rows in reserve than it has: the number of columns is not found, or taken from that reserve. -/
theorem zMat_resized_violated (skip : Bool) (rnd : K → K) (rowcap row col : Nat) (hr : 0 < row) (hc : 0 < col) (hrow : rowcap ≠ row) (hcol : rowcap ≠ col) (m : Nat → Nat → K) (rest : List (Word K))
    (c : Nat) (u : Nat → Nat → K) (h : (zMatFScan skip (zMatFPrint rnd rowcap col row col m ++ rest)).1 = some (row, c, u)) : c ≠ col := by
  unfold zMatFPrint zMatFScan at h
  rw [if_pos hrow, if_neg (by simp)] at h
  simp only [List.cons_append, List.nil_append, zFInt] at h
  cases skip with
  | false => simp at h
  | true =>
    simp only [if_true, zFInt] at h
    split_ifs at h
    simp only [Int.toNat_natCast, Option.some.injEq, Prod.mk.injEq] at h
    omega

/-- C193, polynomials. -/
theorem zPex_roundtrip (skip : Bool) (rnd : K → K) (dim : Nat) (a : Nat → K) (rest : List (Word K)) :
    ∃ u, zPexFScan skip (zPexFPrint rnd dim a ++ rest) = .ok (some (dim, u), rest) ∧ ∀ k, k ≤ dim → u k = Rnd rnd (a k) := by
  obtain ⟨u, e, h1, -⟩ := scan_value skip rnd rest a (dim + 1) (fun _ => 0)
  refine ⟨u, ?_, fun k hk => h1 k (by omega)⟩
  unfold zPexFPrint zPexFScan
  simp only [List.cons_append, zFInt]
  rw [if_neg (by omega)]
  have : ((dim : Int) + 1).toNat = dim + 1 := by omega
  rw [this, e, Int.toNat_natCast]

/-- C193 is violated by a file without a number for the degree: the variable was never set. -/
theorem zPex_nodim_violated (skip : Bool) : zPexFScan skip ([] : List (Word K)) = .ub := rfl

/-- C193, sequences of vectors that have the capacity of their size: all cells are read back in the same order. -/
theorem zSeq_roundtrip_partial (skip : Bool) (rnd : K → K) (s : List (Cell K)) (hs : ∀ c ∈ s, 0 < c.size ∧ c.cap = c.size) : ∀ fuel, s.length < fuel →
    ∃ r, zSeqFScan skip fuel (zSeqFPrint rnd s) = r ∧
      List.Forall₂ (fun c p => p.1 = Rnd rnd c.dt ∧ p.2.1 = c.size ∧ ∀ k, k < c.size → p.2.2 k = Rnd rnd (c.v k)) s r := by
  induction s with
  | nil => intro fuel hf; cases fuel <;> exact ⟨_, rfl, .nil⟩
  | cons c s ih =>
    intro fuel hf
    obtain ⟨fuel, rfl⟩ : ∃ f, fuel = f + 1 := ⟨fuel - 1, by simp at hf; omega⟩
    obtain ⟨r, e, h⟩ := ih (fun c hc => hs c (List.mem_cons_of_mem _ hc)) fuel (by simp at hf; omega)
    obtain ⟨h1, h2⟩ := hs c List.mem_cons_self
    obtain ⟨u, eu, hu⟩ := zVec_roundtrip_partial skip rnd c.size h1 c.v (zSeqFPrint rnd s)
    refine ⟨_, rfl, ?_⟩
    have e2 : zSeqFPrint rnd (c :: s) = real rnd c.dt :: (zVecFPrint rnd c.size c.size c.v ++ zSeqFPrint rnd s) := by
      show real rnd c.dt :: zVecFPrint rnd c.cap c.size c.v ++ zSeqFPrint rnd s = _
      rw [h2]
      rfl
    have e3 : zSeqFScan skip (fuel + 1) (zSeqFPrint rnd (c :: s)) = (Rnd rnd c.dt, c.size, u) :: r := by
      rw [e2, zSeqFScan]
      have : zFDouble skip (real rnd c.dt :: (zVecFPrint rnd c.size c.size c.v ++ zSeqFPrint rnd s)) = some (Rnd rnd c.dt, zVecFPrint rnd c.size c.size c.v ++ zSeqFPrint rnd s) := rfl
      rw [this]
      simp only [List.isEmpty_cons, Bool.false_eq_true, if_false, eu, e]
    rw [e3]
    exact .cons ⟨rfl, rfl, hu⟩ h

example : ∃ r, zSeqFScan false 3 (zSeqFPrint (id : ℚ → ℚ) [⟨1/2, 2, 2, fun i => -i⟩, ⟨1, 1, 1, fun _ => 7⟩]) = r ∧
    List.Forall₂ (fun (c : Cell ℚ) p => p.1 = Rnd id c.dt ∧ p.2.1 = c.size ∧ ∀ k, k < c.size → p.2.2 k = Rnd id (c.v k)) [⟨1/2, 2, 2, fun i => -i⟩, ⟨1, 1, 1, fun _ => 7⟩] r :=
  zSeq_roundtrip_partial false id _ (by simp) 3 (by norm_num)
example : ∃ u, (zVecFScan true (zVecFPrint (id : ℚ → ℚ) 5 3 (fun i => i) ++ [])).1 = some (3, u) ∧ u 0 = 5 := by
  obtain ⟨u, h1, h2⟩ := zVec_resized_violated (K := ℚ) true id 5 3 (by norm_num) (by norm_num) (fun i => i) []
  exact ⟨u, h1, by rw [h2]; norm_num⟩

end Zm.Text
