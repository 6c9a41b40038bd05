import Verif.Model.MDFile
import Mathlib.Algebra.Order.Ring.Rat
import Mathlib.Tactic.Linarith
import Mathlib.Tactic.FieldSimp
import Mathlib.Tactic.Ring

/-!
# Files of linear programs of two variables
-/

set_option linter.unusedSectionVars false

namespace Zm.MDFile
open Zm Zm.MD
variable {K : Type*} [Field K] [LinearOrder K] [IsStrictOrderedRing K]

/-! ## Specification -/

/-- The points a problem allows, in the variables of the user: the cost `c1 x1 + c2 x2` is between the lines and `x1` is within its bounds. -/
def Allowed (p : Prob K) (x1 x2 : K) : Prop :=
  (∀ u ∈ p.upper, p.c1 * x1 + p.c2 * x2 ≤ u.m * x1 + u.y0) ∧ (∀ l ∈ p.lower, l.m * x1 + l.y0 ≤ p.c1 * x1 + p.c2 * x2) ∧
    p.xmin ≤ fin x1 ∧ fin x1 ≤ p.xmax

/-- Two problems with the same cost and the same allowed points. -/
def Same (p q : Prob K) : Prop := p.c1 = q.c1 ∧ p.c2 = q.c2 ∧ ∀ x1 x2, Allowed p x1 x2 ↔ Allowed q x1 x2

/-- A number that a file keeps: eight bytes from which it is recovered. -/
def KeepsD (c : Codec K) (x : K) : Prop := (c.encD x).length = 8 ∧ c.decD (c.encD x) = x

/-- A count that a file keeps: four bytes from which it is recovered. -/
def KeepsI (c : Codec K) (n : Nat) : Prop := (c.encI n).length = 4 ∧ c.decI (c.encI n) = n

/-- The file keeps all the numbers of a problem. -/
structure Keeps (c : Codec K) (p : Prob K) : Prop where
  c1 : KeepsD c p.c1
  c2 : KeepsD c p.c2
  one : KeepsD c 1
  mone : KeepsD c (-1)
  n : KeepsI c (p.upper.length + p.lower.length)
  up : ∀ u ∈ p.upper, KeepsD c (-u.m) ∧ KeepsD c u.y0
  lo : ∀ l ∈ p.lower, KeepsD c l.m ∧ KeepsD c (-l.y0)

/-! ## Reading what has been written -/

theorem fread_append {n : Nat} {a f : List UInt8} (h : a.length = n) : fread n (a ++ f) = some (a, f) := by
  subst h
  simp [fread]

theorem readRow_enc (c : Codec K) (r : K × K × K) (f : List UInt8) (h1 : KeepsD c r.1) (h2 : KeepsD c r.2.1) (h3 : KeepsD c r.2.2) :
    readRow c (encRow c r ++ f) = some (r, f) := by
  unfold readRow encRow
  rw [List.append_assoc, List.append_assoc, fread_append h1.1]
  simp only [Option.bind]
  rw [fread_append h2.1]
  simp only
  rw [fread_append h3.1]
  simp only [h1.2, h2.2, h3.2]

/-- A row is added as a constraint. -/
def addRow (tol : K) (p : Prob K) (r : K × K × K) : Prob K := (zLPMegiddoDyerAddConstraint tol p r.1 r.2.1 r.2.2).1

theorem readRows_enc (tol : K) (c : Codec K) : ∀ (l : List (K × K × K)) (p : Prob K),
    (∀ r ∈ l, KeepsD c r.1 ∧ KeepsD c r.2.1 ∧ KeepsD c r.2.2) →
    readRows tol c l.length (l.flatMap (encRow c)) p = (l.foldl (addRow tol) p, true)
  | [], p, _ => rfl
  | r :: l, p, h => by
    have hr := h r (by simp)
    rw [List.length_cons, List.flatMap_cons]
    unfold readRows
    rw [readRow_enc c r _ hr.1 hr.2.1 hr.2.2]
    simp only
    rw [readRows_enc tol c l _ (fun q hq => h q (by simp [hq]))]
    rfl

theorem rows_length (p : Prob K) : (rows p).length = p.upper.length + p.lower.length := by simp [rows]

/-- What is read from the file that has been written: the rows of the file added one by one. -/
theorem read_write (tol : K) (c : Codec K) (p p0 : Prob K) (h : Keeps c p) :
    zLPMegiddoDyerReadFile tol c p0 (some (zLPMegiddoDyerWriteFile c p)) =
      ((rows p).foldl (addRow tol) { (zLPMegiddoDyerInit : Prob K) with c1 := p.c1, c2 := p.c2 }, true) := by
  unfold zLPMegiddoDyerReadFile zLPMegiddoDyerWriteFile
  simp only
  rw [List.append_assoc, List.append_assoc, fread_append h.c1.1]
  simp only
  rw [fread_append h.c2.1]
  simp only
  rw [fread_append h.n.1]
  simp only [h.c1.2, h.c2.2]
  rw [h.n.2, Int.toNat_natCast, ← rows_length]
  apply readRows_enc
  intro r hr
  simp only [rows, List.mem_append, List.mem_map, List.mem_reverse] at hr
  rcases hr with ⟨u, hu, rfl⟩ | ⟨l, hl, rfl⟩
  · exact ⟨(h.up u hu).1, h.one, (h.up u hu).2⟩
  · exact ⟨(h.lo l hl).1, h.mone, (h.lo l hl).2⟩

/-- The line of a cell. -/
def line (l : Cell K) : K × K := (l.m, l.y0)

/-- The cost, the bounds of the first variable and the lines after rows of lines have been added. -/
def Shape (p : Prob K) (c1 c2 : K) (U L : List (K × K)) : Prop :=
  p.c1 = c1 ∧ p.c2 = c2 ∧ p.xmin = ⊥ ∧ p.xmax = ⊤ ∧ p.upper.map line = U ∧ p.lower.map line = L

theorem addRow_upper {tol : K} (h0 : 0 ≤ tol) (h1 : tol < 1) {p : Prob K} {c1 c2 : K} (hc : tol < c2) {U L : List (K × K)} (h : Shape p c1 c2 U L)
    (u : Cell K) : Shape (addRow tol p (upperRow u)) c1 c2 ((c1 + c2 * u.m, c2 * u.y0) :: U) L := by
  obtain ⟨e1, e2, e3, e4, e5, e6⟩ := h
  have hc2 : ¬|p.c2| ≤ tol := by rw [e2, not_le]; exact lt_of_lt_of_le hc (le_abs_self _)
  have ha : ¬|(1 : K)| ≤ tol := by rw [abs_one]; exact not_le.mpr h1
  have hp : (0 : K) < c2 := lt_of_le_of_lt h0 hc
  have hd : decide ((1 : K) / p.c2 > 0) = true := by rw [e2]; simpa using hp
  have hm : p.c1 - -u.m / (1 / p.c2) = c1 + c2 * u.m := by rw [e1, e2]; field_simp; ring
  have hy : u.y0 / (1 / p.c2) = c2 * u.y0 := by rw [e2]; field_simp
  unfold addRow zLPMegiddoDyerAddConstraint upperRow
  simp only [if_neg ha, if_neg hc2, hd, hm, hy]
  refine ⟨e1, e2, e3, e4, ?_, ?_⟩
  · show line _ :: p.upper.map line = _
    rw [e5]; rfl
  · exact e6

theorem addRow_lower {tol : K} (h0 : 0 ≤ tol) (h1 : tol < 1) {p : Prob K} {c1 c2 : K} (hc : tol < c2) {U L : List (K × K)} (h : Shape p c1 c2 U L)
    (l : Cell K) : Shape (addRow tol p (lowerRow l)) c1 c2 U ((c1 + c2 * l.m, c2 * l.y0) :: L) := by
  obtain ⟨e1, e2, e3, e4, e5, e6⟩ := h
  have hc2 : ¬|p.c2| ≤ tol := by rw [e2, not_le]; exact lt_of_lt_of_le hc (le_abs_self _)
  have ha : ¬|(-1 : K)| ≤ tol := by rw [abs_neg, abs_one]; exact not_le.mpr h1
  have hp : (0 : K) < c2 := lt_of_le_of_lt h0 hc
  have hd : decide ((-1 : K) / p.c2 > 0) = false := by
    rw [e2]
    simp only [gt_iff_lt, decide_eq_false_iff_not, not_lt]
    exact le_of_lt (div_neg_of_neg_of_pos (by linarith) hp)
  have hm : p.c1 - l.m / (-1 / p.c2) = c1 + c2 * l.m := by rw [e1, e2]; field_simp; ring
  have hy : -l.y0 / (-1 / p.c2) = c2 * l.y0 := by rw [e2]; field_simp
  unfold addRow zLPMegiddoDyerAddConstraint lowerRow
  simp only [if_neg ha, if_neg hc2, hd, hm, hy]
  refine ⟨e1, e2, e3, e4, e5, ?_⟩
  show line _ :: p.lower.map line = _
  rw [e6]; rfl

theorem foldl_upper {tol : K} (h0 : 0 ≤ tol) (h1 : tol < 1) {c1 c2 : K} (hc : tol < c2) : ∀ (l : List (Cell K)) (p : Prob K) (U L : List (K × K)),
    Shape p c1 c2 U L → Shape ((l.map upperRow).foldl (addRow tol) p) c1 c2 (l.reverse.map (fun u => (c1 + c2 * u.m, c2 * u.y0)) ++ U) L
  | [], _, _, _, h => h
  | u :: l, p, U, L, h => by
    have := foldl_upper h0 h1 hc l _ _ _ (addRow_upper h0 h1 hc h u)
    simpa using this

theorem foldl_lower {tol : K} (h0 : 0 ≤ tol) (h1 : tol < 1) {c1 c2 : K} (hc : tol < c2) : ∀ (l : List (Cell K)) (p : Prob K) (U L : List (K × K)),
    Shape p c1 c2 U L → Shape ((l.map lowerRow).foldl (addRow tol) p) c1 c2 U (l.reverse.map (fun u => (c1 + c2 * u.m, c2 * u.y0)) ++ L)
  | [], _, _, _, h => h
  | u :: l, p, U, L, h => by
    have := foldl_lower h0 h1 hc l _ _ _ (addRow_lower h0 h1 hc h u)
    simpa using this

/-- Reading a file that has been written succeeds, and gives the cost of the problem, no bounds of the first variable, and in place of every line
`m`, `y0` the line `c1 + c2 m`, `c2 y0` on the same side and in the same order (the second coefficient of the cost is positive). -/
theorem read_write_lines (tol : K) (h0 : 0 ≤ tol) (h1 : tol < 1) (c : Codec K) (p p0 : Prob K) (h : Keeps c p) (hc : tol < p.c2) :
    (zLPMegiddoDyerReadFile tol c p0 (some (zLPMegiddoDyerWriteFile c p))).2 = true ∧
    (zLPMegiddoDyerReadFile tol c p0 (some (zLPMegiddoDyerWriteFile c p))).1.c1 = p.c1 ∧
    (zLPMegiddoDyerReadFile tol c p0 (some (zLPMegiddoDyerWriteFile c p))).1.c2 = p.c2 ∧
    (zLPMegiddoDyerReadFile tol c p0 (some (zLPMegiddoDyerWriteFile c p))).1.xmin = ⊥ ∧
    (zLPMegiddoDyerReadFile tol c p0 (some (zLPMegiddoDyerWriteFile c p))).1.xmax = ⊤ ∧
    (zLPMegiddoDyerReadFile tol c p0 (some (zLPMegiddoDyerWriteFile c p))).1.upper.map (fun u => (u.m, u.y0)) =
      p.upper.map (fun u => (p.c1 + p.c2 * u.m, p.c2 * u.y0)) ∧
    (zLPMegiddoDyerReadFile tol c p0 (some (zLPMegiddoDyerWriteFile c p))).1.lower.map (fun u => (u.m, u.y0)) =
      p.lower.map (fun u => (p.c1 + p.c2 * u.m, p.c2 * u.y0)) := by
  rw [read_write tol c p p0 h]
  have hs : Shape { (zLPMegiddoDyerInit : Prob K) with c1 := p.c1, c2 := p.c2 } p.c1 p.c2 [] [] := ⟨rfl, rfl, rfl, rfl, rfl, rfl⟩
  have hu := foldl_upper h0 h1 hc p.upper.reverse _ _ _ hs
  have hl := foldl_lower h0 h1 hc p.lower.reverse _ _ _ hu
  rw [List.reverse_reverse, List.append_nil] at hl
  rw [List.reverse_reverse, List.append_nil] at hl
  unfold rows
  rw [List.foldl_append]
  obtain ⟨e1, e2, e3, e4, e5, e6⟩ := hl
  exact ⟨rfl, e1, e2, e3, e4, e5, e6⟩

theorem allowed_congr {p q : Prob K} (e1 : q.c1 = p.c1) (e2 : q.c2 = p.c2) (e3 : q.xmin = p.xmin) (e4 : q.xmax = p.xmax)
    (e5 : q.upper.map line = p.upper.map line) (e6 : q.lower.map line = p.lower.map line) : Same p q := by
  refine ⟨e1.symm, e2.symm, fun x1 x2 => ?_⟩
  have key : ∀ (P : K × K → Prop) (a b : List (Cell K)), a.map line = b.map line → ((∀ u ∈ b, P (line u)) ↔ ∀ u ∈ a, P (line u)) := by
    intro P a b hab
    rw [show (∀ u ∈ b, P (line u)) ↔ ∀ u ∈ b.map line, P u by simp, show (∀ u ∈ a, P (line u)) ↔ ∀ u ∈ a.map line, P u by simp, hab]
  unfold Allowed
  rw [e1, e2, e3, e4]
  exact and_congr (key (fun u => p.c1 * x1 + p.c2 * x2 ≤ u.1 * x1 + u.2) _ _ e5)
    (and_congr (key (fun u => u.1 * x1 + u.2 ≤ p.c1 * x1 + p.c2 * x2) _ _ e6) Iff.rfl)

/-- Partial: a problem that minimises the second variable itself and has no bound of the first variable alone comes back from a file with the same
cost and the same allowed points.  Missing: other costs and problems with bounds of the first variable; see the violations. -/
theorem read_write_same_partial (tol : K) (h0 : 0 ≤ tol) (h1 : tol < 1) (c : Codec K) (p p0 : Prob K) (h : Keeps c p) (hc1 : p.c1 = 0) (hc2 : p.c2 = 1)
    (hmin : p.xmin = ⊥) (hmax : p.xmax = ⊤) :
    (zLPMegiddoDyerReadFile tol c p0 (some (zLPMegiddoDyerWriteFile c p))).2 = true ∧
    Same p (zLPMegiddoDyerReadFile tol c p0 (some (zLPMegiddoDyerWriteFile c p))).1 := by
  obtain ⟨a, e1, e2, e3, e4, e5, e6⟩ := read_write_lines tol h0 h1 c p p0 h (by rw [hc2]; exact h1)
  refine ⟨a, allowed_congr e1 e2 (e3.trans hmin.symm) (e4.trans hmax.symm) ?_ ?_⟩
  · rw [show List.map line _ = _ from e5, hc1, hc2]
    simp only [zero_add, one_mul]
    rfl
  · rw [show List.map line _ = _ from e6, hc1, hc2]
    simp only [zero_add, one_mul]
    rfl

/-! ## Files that are too short -/

theorem fread_some {n : Nat} {f : List UInt8} {r : List UInt8 × List UInt8} : fread n f = some r ↔ n ≤ f.length ∧ r = (f.take n, f.drop n) := by
  unfold fread
  split <;> rename_i h
  · simp [h, eq_comm]
  · simp [h]

theorem fread_lt {n : Nat} {f : List UInt8} (h : ¬n ≤ f.length) : fread n f = none := if_neg h
theorem fread_le {n : Nat} {f : List UInt8} (h : n ≤ f.length) : fread n f = some (f.take n, f.drop n) := if_pos h

theorem readRow_le (c : Codec K) (f : List UInt8) (h : 24 ≤ f.length) : ∃ r, readRow c f = some (r, f.drop 24) := by
  unfold readRow
  rw [fread_le (by omega)]
  simp only [Option.bind]
  rw [fread_le (by rw [List.length_drop]; omega)]
  simp only
  rw [fread_le (by rw [List.length_drop, List.length_drop]; omega)]
  simp only [List.drop_drop]
  exact ⟨_, rfl⟩

theorem readRow_lt (c : Codec K) (f : List UInt8) (h : ¬24 ≤ f.length) : readRow c f = none := by
  unfold readRow
  by_cases h1 : 8 ≤ f.length
  · rw [fread_le h1]
    simp only [Option.bind]
    by_cases h2 : 8 ≤ (f.drop 8).length
    · rw [fread_le h2]
      simp only
      rw [fread_lt]
      rw [List.length_drop, List.length_drop]
      omega
    · rw [fread_lt h2]
  · rw [fread_lt h1]
    rfl

theorem readRows_ok (tol : K) (c : Codec K) : ∀ (n : Nat) (f : List UInt8) (p : Prob K), (readRows tol c n f p).2 = true ↔ 24 * n ≤ f.length
  | 0, _, _ => by simp [readRows]
  | n + 1, f, p => by
    unfold readRows
    by_cases h : 24 ≤ f.length
    · obtain ⟨r, hr⟩ := readRow_le c f h
      rw [hr]
      simp only
      rw [readRows_ok tol c n, List.length_drop]
      omega
    · rw [readRow_lt c f h]
      simp only [Bool.false_eq_true, false_iff]
      omega

/-- Reading is reported as a success exactly when the file exists and has room for the header and for as many rows as the header announces. -/
theorem read_succeeds (tol : K) (c : Codec K) (p0 : Prob K) (file : Option (List UInt8)) :
    (zLPMegiddoDyerReadFile tol c p0 file).2 = true ↔
      ∃ f, file = some f ∧ 20 ≤ f.length ∧ 20 + 24 * (c.decI ((f.drop 16).take 4)).toNat ≤ f.length := by
  unfold zLPMegiddoDyerReadFile
  cases file with
  | none => simp
  | some f =>
    simp only [Option.some.injEq, exists_eq_left']
    by_cases h1 : 8 ≤ f.length
    · rw [fread_le h1]
      simp only
      by_cases h2 : 8 ≤ (f.drop 8).length
      · rw [fread_le h2]
        simp only
        by_cases h3 : 4 ≤ ((f.drop 8).drop 8).length
        · rw [fread_le h3]
          simp only
          rw [readRows_ok]
          simp only [List.drop_drop, List.length_drop] at *
          norm_num
          omega
        · rw [fread_lt h3]
          simp only [List.drop_drop, List.length_drop] at *
          simp only [Bool.false_eq_true, false_iff]
          omega
      · rw [fread_lt h2]
        simp only [List.length_drop] at *
        simp only [Bool.false_eq_true, false_iff]
        omega
    · rw [fread_lt h1]
      simp only [Bool.false_eq_true, false_iff]
      omega

/-- A file that cannot be opened leaves the problem of the caller as it is. -/
theorem read_missing (tol : K) (c : Codec K) (p0 : Prob K) : zLPMegiddoDyerReadFile tol c p0 none = (p0, false) := rfl

/-! ## Violations -/

/-- Small whole numbers in eight bytes and counts in four. -/
def smallCodec : Codec ℚ where
  encD x := [(x.num.toNat : Nat).toUInt8, ((-x.num).toNat : Nat).toUInt8, 0, 0, 0, 0, 0, 0]
  decD l := ((l.getD 0 0).toNat : ℚ) - ((l.getD 1 0).toNat : ℚ)
  encI n := [(n.toNat : Nat).toUInt8, 0, 0, 0]
  decI l := (l.getD 0 0).toNat

/-- Minimise x1 + x2 with x2 ≤ 0. -/
def pCost : Prob ℚ := (zLPMegiddoDyerAddConstraint 0 (zLPMegiddoDyerSetCostCoefficient 0 zLPMegiddoDyerInit 1 1).1 0 1 0).1

theorem pCost_upper : pCost.upper = [⟨0, 1, 0⟩] := by decide +kernel
theorem pCost_lower : pCost.lower = [] := by decide +kernel

theorem pCost_keeps : Keeps smallCodec pCost where
  c1 := by constructor <;> decide +kernel
  c2 := by constructor <;> decide +kernel
  one := by constructor <;> decide +kernel
  mone := by constructor <;> decide +kernel
  n := by constructor <;> decide +kernel
  up := by
    rw [pCost_upper]
    intro u hu
    rw [List.mem_singleton] at hu
    subst hu
    refine ⟨⟨?_, ?_⟩, ?_, ?_⟩ <;> decide +kernel
  lo := by
    rw [pCost_lower]
    intro u hu
    cases hu

/-- The lines of the file are those of the cost and not of the second variable: the problem of minimising x1 + x2 with x2 ≤ 0 comes back with
x2 ≤ x1, although every number of it is kept by the file. -/
theorem write_cost_violated : ∃ (c : Codec ℚ) (p : Prob ℚ), Keeps c p ∧
    (∃ q : Prob ℚ, p = (zLPMegiddoDyerAddConstraint 0 (zLPMegiddoDyerSetCostCoefficient 0 zLPMegiddoDyerInit 1 1).1 0 1 0).1 ∧
      zLPMegiddoDyerReadFile 0 c zLPMegiddoDyerInit (some (zLPMegiddoDyerWriteFile c p)) = (q, true) ∧
      Allowed p (-1) 0 ∧ ¬Allowed q (-1) 0) := by
  refine ⟨smallCodec, pCost, pCost_keeps, (zLPMegiddoDyerReadFile 0 smallCodec zLPMegiddoDyerInit (some (zLPMegiddoDyerWriteFile smallCodec pCost))).1,
    rfl, ?_, ?_, ?_⟩
  · rw [read_write 0 smallCodec pCost _ pCost_keeps]
  · refine ⟨?_, ?_, ?_, ?_⟩
    · rw [pCost_upper]
      intro u hu
      rw [List.mem_singleton] at hu
      subst hu
      decide +kernel
    · rw [pCost_lower]
      intro u hu
      cases hu
    · decide +kernel
    · decide +kernel
  · intro h
    obtain ⟨_, e1, e2, _, _, e5, _⟩ := read_write_lines 0 (le_refl 0) (by decide +kernel) smallCodec pCost zLPMegiddoDyerInit pCost_keeps (by decide +kernel)
    have hu := h.1
    rw [e1, e2] at hu
    rw [pCost_upper, List.map_cons, List.map_nil] at e5
    obtain ⟨u, hu1, hu2⟩ := List.map_eq_singleton_iff.mp e5
    have h1 := hu u (by rw [hu1]; simp)
    rw [Prod.mk.injEq] at hu2
    rw [hu2.1, hu2.2] at h1
    revert h1
    decide +kernel

/-- Minimise x2 with x1 ≤ 0. -/
def pBound : Prob ℚ := (zLPMegiddoDyerAddConstraint 0 (zLPMegiddoDyerSetCostCoefficient 0 zLPMegiddoDyerInit 0 1).1 1 0 0).1

/-- The bounds of the first variable are not written: minimising x2 with x1 ≤ 0 comes back without x1 ≤ 0. -/
theorem write_bound_violated : ∃ (c : Codec ℚ) (p : Prob ℚ), Keeps c p ∧
    (∃ q : Prob ℚ, p = (zLPMegiddoDyerAddConstraint 0 (zLPMegiddoDyerSetCostCoefficient 0 zLPMegiddoDyerInit 0 1).1 1 0 0).1 ∧
      zLPMegiddoDyerReadFile 0 c zLPMegiddoDyerInit (some (zLPMegiddoDyerWriteFile c p)) = (q, true) ∧
      Allowed q 1 0 ∧ ¬Allowed p 1 0) := by
  have hU : pBound.upper = [] := by decide +kernel
  have hL : pBound.lower = [] := by decide +kernel
  have hK : Keeps smallCodec pBound := by
    constructor
    · constructor <;> decide +kernel
    · constructor <;> decide +kernel
    · constructor <;> decide +kernel
    · constructor <;> decide +kernel
    · constructor <;> decide +kernel
    · rw [hU]; intro u hu; cases hu
    · rw [hL]; intro u hu; cases hu
  refine ⟨smallCodec, pBound, hK, (zLPMegiddoDyerReadFile 0 smallCodec zLPMegiddoDyerInit (some (zLPMegiddoDyerWriteFile smallCodec pBound))).1,
    rfl, ?_, ?_, ?_⟩
  · rw [read_write 0 smallCodec pBound _ hK]
  · obtain ⟨_, e1, e2, e3, e4, e5, e6⟩ := read_write_lines 0 (le_refl 0) (by decide +kernel) smallCodec pBound zLPMegiddoDyerInit hK (by decide +kernel)
    rw [hU, List.map_nil, List.map_eq_nil_iff] at e5
    rw [hL, List.map_nil, List.map_eq_nil_iff] at e6
    refine ⟨?_, ?_, ?_, ?_⟩
    · rw [e5]; intro u hu; cases hu
    · rw [e6]; intro u hu; cases hu
    · rw [e3]; exact bot_le
    · rw [e4]; exact le_top
  · intro h
    have := h.2.2.2
    revert this
    decide +kernel

/-- The text file has no row of a lower bound: two problems that differ in their lower bounds only, and allow different points, give the same file. -/
theorem writeASCII_violated : ∃ (p q : Prob ℚ),
    p = (zLPMegiddoDyerAddConstraint 0 (zLPMegiddoDyerSetCostCoefficient 0 zLPMegiddoDyerInit 0 1).1 0 (-1) 0).1 ∧
    q = (zLPMegiddoDyerAddConstraint 0 (zLPMegiddoDyerSetCostCoefficient 0 zLPMegiddoDyerInit 0 1).1 0 (-1) 1).1 ∧
    zLPMegiddoDyerWriteFileASCII p = zLPMegiddoDyerWriteFileASCII q ∧ Allowed q 0 (-1) ∧ ¬Allowed p 0 (-1) := by
  refine ⟨_, _, rfl, rfl, ?_, ?_, ?_⟩
  · decide +kernel
  · refine ⟨?_, ?_, ?_, ?_⟩
    · rw [show ((zLPMegiddoDyerAddConstraint 0 (zLPMegiddoDyerSetCostCoefficient 0 zLPMegiddoDyerInit 0 1).1 0 (-1) 1).1 : Prob ℚ).upper = [] by decide +kernel]
      intro u hu; cases hu
    · rw [show ((zLPMegiddoDyerAddConstraint 0 (zLPMegiddoDyerSetCostCoefficient 0 zLPMegiddoDyerInit 0 1).1 0 (-1) 1).1 : Prob ℚ).lower = [⟨0, 0, -1⟩]
        by decide +kernel]
      intro u hu
      rw [List.mem_singleton] at hu
      subst hu
      decide +kernel
    · decide +kernel
    · decide +kernel
  · intro h
    have h1 := h.2.1 ⟨0, 0, 0⟩ (by decide +kernel)
    revert h1
    decide +kernel

/-! ## Not vacuous -/

/-- Minimise x2 with x2 ≤ x1 + 2 and x2 ≥ -x1 - 3. -/
def pEx : Prob ℚ := (zLPMegiddoDyerAddConstraint 0
  (zLPMegiddoDyerAddConstraint 0 (zLPMegiddoDyerSetCostCoefficient 0 zLPMegiddoDyerInit 0 1).1 (-1) 1 2).1 (-1) (-1) 3).1

example : pEx.upper = [⟨0, 1, 2⟩] ∧ pEx.lower = [⟨1, -1, -3⟩] := by decide +kernel

/-- The hypotheses of the round trip hold for a problem with a bound on either side. -/
example : Same pEx (zLPMegiddoDyerReadFile 0 smallCodec zLPMegiddoDyerInit (some (zLPMegiddoDyerWriteFile smallCodec pEx))).1 := by
  have hU : pEx.upper = [⟨0, 1, 2⟩] := by decide +kernel
  have hL : pEx.lower = [⟨1, -1, -3⟩] := by decide +kernel
  refine (read_write_same_partial 0 (le_refl 0) (by decide +kernel) smallCodec pEx _ ?_ (by decide +kernel) (by decide +kernel) (by decide +kernel)
    (by decide +kernel)).2
  constructor
  · constructor <;> decide +kernel
  · constructor <;> decide +kernel
  · constructor <;> decide +kernel
  · constructor <;> decide +kernel
  · constructor <;> decide +kernel
  · rw [hU]
    intro u hu
    rw [List.mem_singleton] at hu
    subst hu
    refine ⟨⟨?_, ?_⟩, ?_, ?_⟩ <;> decide +kernel
  · rw [hL]
    intro u hu
    rw [List.mem_singleton] at hu
    subst hu
    refine ⟨⟨?_, ?_⟩, ?_, ?_⟩ <;> decide +kernel

/-- A file of nineteen bytes is refused; one with a header of no rows is accepted. -/
example : (zLPMegiddoDyerReadFile 0 smallCodec zLPMegiddoDyerInit (some (List.replicate 19 0))).2 = false ∧
    (zLPMegiddoDyerReadFile 0 smallCodec zLPMegiddoDyerInit (some (List.replicate 20 0))).2 = true := by decide +kernel

end Zm.MDFile
