import Verif.Model.ObjPart
import Verif.Props.ObjDRC

/-! # C240: parts of vectors and matrices -/

set_option linter.unusedSectionVars false

namespace Zm.Obj
variable {K : Type*} [Field K] [LinearOrder K] [IsStrictOrderedRing K]

/-! ## Specification -/

/-- The part lies within the source, or within the destination. -/
def PartFits (f : Part) (A C : Arr K) : Prop :=
  match f with
  | .get r c => r + C.rows ≤ A.rows ∧ c + C.cols ≤ A.cols
  | .tget r c => r + C.cols ≤ A.rows ∧ c + C.rows ≤ A.cols
  | .put r c => r + A.rows ≤ C.rows ∧ c + A.cols ≤ C.cols
  | .tput r c => r + A.cols ≤ C.rows ∧ c + A.rows ≤ C.cols
  | .vget pos => pos + C.cols ≤ A.cols
  | .vput pos => pos + A.cols ≤ C.cols
  | .getRow k => C.cols = A.cols ∧ k < A.rows
  | .getCol k => C.cols = A.rows ∧ k < A.cols
  | .putRow k => A.cols = C.cols ∧ k < C.rows
  | .putCol k => A.cols = C.rows ∧ k < C.cols

/-- The elements of the destination afterwards. -/
def partEl (f : Part) (A C : Arr K) (i j : Nat) : K :=
  match f with
  | .get r c => A.el (r + i) (c + j)
  | .tget r c => A.el (r + j) (c + i)
  | .put r c => if r ≤ i ∧ i < r + A.rows ∧ c ≤ j ∧ j < c + A.cols then A.el (i - r) (j - c) else C.el i j
  | .tput r c => if r ≤ i ∧ i < r + A.cols ∧ c ≤ j ∧ j < c + A.rows then A.el (j - c) (i - r) else C.el i j
  | .vget pos => A.el 0 (pos + j)
  | .vput pos => if pos ≤ j ∧ j < pos + A.cols then A.el 0 (j - pos) else C.el 0 j
  | .getRow k => A.el k j
  | .getCol k => A.el j k
  | .putRow k => if i = k then A.el 0 j else C.el i j
  | .putCol k => if j = k then A.el 0 i else C.el i j

/-- Two rows, or two columns, exchanged. -/
def swapIx (a b i : Nat) : Nat := if i = a then b else if i = b then a else i

open Classical in
/-- The values after one step. -/
noncomputable def pspec (tol : K) (got : Bool) (s : Vals K) (o : POp K) : Vals K :=
  match o with
  | .base o => dspec tol got s o
  | .part f x z =>
    if (s.var x).1 = (partKinds f).1 ∧ (s.var z).1 = (partKinds f).2 then
      match (s.var x).2 with
      | some A => s.upd z fun C => if PartFits f A C then withEl C (partEl f A C) else C
      | none => s
    else s
  | .swapRow x r1 r2 =>
    if (s.var x).1 = .mat then s.upd x fun C => if r1 < C.rows ∧ r2 < C.rows then withEl C (fun i j => C.el (swapIx r1 r2 i) j) else C else s
  | .swapCol x c1 c2 =>
    if (s.var x).1 = .mat then s.upd x fun C => if c1 < C.cols ∧ c2 < C.cols then withEl C (fun i j => C.el i (swapIx c1 c2 j)) else C else s

/-- The obligation of the client: source and destination differ. -/
def PFits (s : Vals K) (o : POp K) : Prop :=
  match o with
  | .base o => DFits s o
  | .part _ x z => x ≠ z
  | _ => True

/-! ## Scattering -/

theorem memcpy_ne {s d : Nat} (hne : s ≠ d) (i j n : Nat) (h : Hp K) :
    memcpy s i d j n h = forUpM 0 n (fun k h => (rd h s (i + k)).bind fun x => wr h d (j + k) x) h := by
  unfold memcpy
  rw [if_neg (fun c => hne c.1)]

theorem ix_inj {n i j i2 j2 : Nat} (hj : j < n) (hj2 : j2 < n) (e : i * n + j = i2 * n + j2) : i = i2 ∧ j = j2 := cell_inj hj2 hj e

/-- A loop that writes what it reads in another buffer, each time to another place. -/
theorem scatter (h : Hp K) (b cap rows cols R N s : Nat) (a w ri ci : Nat → Nat → Nat) (hb : b ∈ h.live) (hc : cols ≤ cap)
    (hlen : ∀ i j, i < rows → j < cols → i * cap + j < h.len b)
    (hw : ∀ i j, i < R → j < N → w i j = ri i j * cap + ci i j ∧ ri i j < rows ∧ ci i j < cols)
    (inj : ∀ i j i2 j2, i < R → j < N → i2 < R → j2 < N → ri i j = ri i2 j2 → ci i j = ci i2 j2 → i = i2 ∧ j = j2)
    (hs : s ∈ h.live) (hne : s ≠ b) (ha : ∀ i j, i < R → j < N → a i j < h.len s) :
    ∃ h' g, forUpM 0 R (fun i h => forUpM 0 N (fun j h => (rd h s (a i j)).bind fun x => wr h b (w i j) x) h) h = .ok h' ∧ Filled h h' b cap rows cols g ∧
      (∀ i j, i < R → j < N → g (ri i j) (ci i j) = h.dat s (a i j)) ∧
      (∀ i' j', (∀ i j, i < R → j < N → ¬(ri i j = i' ∧ ci i j = j')) → g i' j' = h.dat b (i' * cap + j')) := by
  obtain ⟨h', e, g, f, p1, p2⟩ := nested R N (fun i j h => (rd h s (a i j)).bind fun x => wr h b (w i j) x)
    (fun n t => ∃ g, Filled h t b cap rows cols g ∧ (∀ i j, i < R → j < N → i * N + j < n → g (ri i j) (ci i j) = h.dat s (a i j)) ∧
      (∀ i' j', (∀ i j, i < R → j < N → i * N + j < n → ¬(ri i j = i' ∧ ci i j = j')) → g i' j' = h.dat b (i' * cap + j'))) h
    ⟨fun i j => h.dat b (i * cap + j), ⟨rfl, rfl, rfl, rfl, rfl, fun _ _ => rfl, fun i j _ => by split <;> rfl⟩, fun i j _ _ h => absurd h (Nat.not_lt_zero _), fun _ _ _ => rfl⟩ (by
      intro i j t hi hj ⟨g, f, p1, p2⟩
      obtain ⟨w1, w2, w3⟩ := hw i j hi hj
      have e1 : rd t s (a i j) = .ok (h.dat s (a i j)) := by
        unfold rd
        rw [if_pos ⟨by rw [f.live]; exact hs, by rw [f.len]; exact ha i j hi hj⟩, f.dat s hne]
      have e2 : wr t b (w i j) (h.dat s (a i j)) = .ok { t with dat := fun b' k' => if b' = b ∧ k' = ri i j * cap + ci i j then h.dat s (a i j) else t.dat b' k' } := by
        unfold wr
        rw [w1, if_pos ⟨by rw [f.live]; exact hb, by rw [f.len]; exact hlen _ _ w2 w3⟩]
      refine ⟨{ t with dat := fun b' k' => if b' = b ∧ k' = ri i j * cap + ci i j then h.dat s (a i j) else t.dat b' k' }, by simp only [e1, Res.bind]; exact e2, fun i' j' => if i' = ri i j ∧ j' = ci i j then h.dat s (a i j) else g i' j', ?_, ?_, ?_⟩
      · refine f.comp (set_filled t b cap rows cols (ri i j) (ci i j) _ w2 w3 hc) ?_
        intro i' j' hi' hj'
        rw [f.el i' j' (by omega), if_pos (show i' < rows ∧ j' < cols from ⟨hi', hj'⟩)]
      · intro i2 j2 hi2 hj2 hn
        dsimp only
        by_cases c : i2 * N + j2 = i * N + j
        · obtain ⟨rfl, rfl⟩ := ix_inj hj2 hj c
          rw [if_pos ⟨rfl, rfl⟩]
        · rw [if_neg (fun c2 => c (by obtain ⟨rfl, rfl⟩ := inj _ _ _ _ hi2 hj2 hi hj c2.1 c2.2; rfl)), p1 i2 j2 hi2 hj2 (by omega)]
      · intro i' j' hn
        dsimp only
        rw [if_neg (fun c => hn i j hi hj (by omega) ⟨c.1.symm, c.2.symm⟩)]
        exact p2 i' j' (fun i2 j2 hi2 hj2 h2 => hn i2 j2 hi2 hj2 (by omega)))
  exact ⟨h', g, e, f, fun i j hi hj => p1 i j hi hj (by
    calc i * N + j < (i + 1) * N := by rw [Nat.add_mul, Nat.one_mul]; omega
      _ ≤ R * N := Nat.mul_le_mul_right _ hi), fun i' j' hn => p2 i' j' (fun i j hi hj _ => hn i j hi hj)⟩

theorem scatter1 (h : Hp K) (b cap rows cols N s : Nat) (a w ri ci : Nat → Nat) (hb : b ∈ h.live) (hc : cols ≤ cap)
    (hlen : ∀ i j, i < rows → j < cols → i * cap + j < h.len b)
    (hw : ∀ j, j < N → w j = ri j * cap + ci j ∧ ri j < rows ∧ ci j < cols)
    (inj : ∀ j j2, j < N → j2 < N → ri j = ri j2 → ci j = ci j2 → j = j2)
    (hs : s ∈ h.live) (hne : s ≠ b) (ha : ∀ j, j < N → a j < h.len s) :
    ∃ h' g, forUpM 0 N (fun j h => (rd h s (a j)).bind fun x => wr h b (w j) x) h = .ok h' ∧ Filled h h' b cap rows cols g ∧
      (∀ j, j < N → g (ri j) (ci j) = h.dat s (a j)) ∧
      (∀ i' j', (∀ j, j < N → ¬(ri j = i' ∧ ci j = j')) → g i' j' = h.dat b (i' * cap + j')) := by
  obtain ⟨h', g, e, f, p1, p2⟩ := scatter h b cap rows cols 1 N s (fun _ => a) (fun _ => w) (fun _ => ri) (fun _ => ci) hb hc hlen (fun _ j _ hj => hw j hj)
    (fun i j i2 j2 hi hj hi2 hj2 e1 e2 => ⟨by omega, inj j j2 hj hj2 e1 e2⟩) hs hne (fun _ j _ hj => ha j hj)
  rw [forUpM_one] at e
  exact ⟨h', g, e, f, fun j hj => p1 0 j Nat.one_pos hj, fun i' j' hn => p2 i' j' (fun _ j _ hj => hn j hj)⟩

theorem clamp_fit {pos part whole : Nat} (h : pos + part ≤ whole) : clampSize pos part whole = part := if_neg (by omega)

/-! ## Steps -/

theorem part_filled {s : Cl K} {a : Vals K} (g : Agrees s a) (f : Part) {x z p q : Nat} {A C : Arr K} (hx : (s.var x).2 = some p) (hz : (s.var z).2 = some q)
    (hA : (a.var x).2 = some A) (hC : (a.var z).2 = some C) (k1 : (s.var x).1 = (partKinds f).1) (k2 : (s.var z).1 = (partKinds f).2) (hne : x ≠ z) :
    (PartFits f A C → ∃ h', part f p q s.h = .ok (h', true) ∧ Filled s.h h' (buf s.h q) C.ccap C.rows C.cols (partEl f A C)) ∧
    (¬PartFits f A C → part f p q s.h = .ok (s.h, false)) := by
  have v1 := g.valid x p A hx hA
  have v2 := g.valid z q C hz hC
  have w1 := g.val x p A hx hA
  have w2 := g.val z q C hz hC
  have dj := (g.disj x z p q hne hx hz).2.2
  have r1 := v1.rows
  have c1 := v1.cols
  have r2 := v2.rows
  have c2 := v2.cols
  have lA : ∀ i j, i < A.rcap → j < A.ccap → i * A.ccap + j < s.h.len (buf s.h p) := fun i j hi hj => by
    rw [w1.len]
    calc i * A.ccap + j < (i + 1) * A.ccap := by rw [Nat.add_mul, Nat.one_mul]; omega
      _ ≤ A.rcap * A.ccap := Nat.mul_le_mul_right _ hi
  have lC : ∀ i j, i < C.rows → j < C.cols → i * C.ccap + j < s.h.len (buf s.h q) := fun i j hi hj => by
    rw [w2.len]
    calc i * C.ccap + j < (i + 1) * C.ccap := by rw [Nat.add_mul, Nat.one_mul]; omega
      _ ≤ C.rcap * C.ccap := Nat.mul_le_mul_right _ (by omega)
  have eA := w1.el
  have eC : ∀ i j, i < C.rows → j < C.cols → s.h.dat (buf s.h q) (i * C.ccap + j) = C.el i j := fun i j hi hj => w2.el i j (by omega) (by omega)
  have hr : partRefuses f ⟨some (buf s.h p), A.rcap, A.ccap, A.rows, A.cols⟩ ⟨some (buf s.h q), C.rcap, C.ccap, C.rows, C.cols⟩ ↔ ¬PartFits f A C := by
    cases f <;> simp only [partRefuses, PartFits] <;> omega
  constructor
  swap
  · intro hf
    unfold part
    simp only [v1.hd, v2.hd, Res.bind]
    rw [if_pos (hr.2 hf)]
  intro hf
  have key : ∃ h', partNC f ⟨some (buf s.h p), A.rcap, A.ccap, A.rows, A.cols⟩ ⟨some (buf s.h q), C.rcap, C.ccap, C.rows, C.cols⟩ s.h = .ok h' ∧
      Filled s.h h' (buf s.h q) C.ccap C.rows C.cols (partEl f A C) := by
    unfold partNC
    simp only [bufOf, Res.bind]
    cases f with
    | get r c =>
      obtain ⟨f1, f2⟩ := hf
      obtain ⟨h', g', e, fl, p1, p2⟩ := scatter s.h (buf s.h q) C.ccap C.rows C.cols C.rows C.cols (buf s.h p) (fun i j => r * A.ccap + c + i * A.ccap + j)
        (fun i j => i * C.ccap + j) (fun i _ => i) (fun _ j => j) v2.bl c2 lC (fun i j hi hj => ⟨rfl, hi, hj⟩) (fun _ _ _ _ _ _ _ _ e1 e2 => ⟨e1, e2⟩) v1.bl dj
        (fun i j hi hj => by have := lA (r + i) (c + j) (by omega) (by omega); rw [Nat.add_mul] at this; omega)
      refine ⟨h', ?_, filled_congr fl ?_⟩
      · simp only [rawMatGet, clamp_fit f1, clamp_fit f2, memcpy_ne dj]; exact e
      · intro i j hi hj
        rw [p1 i j hi hj, show r * A.ccap + c + i * A.ccap + j = (r + i) * A.ccap + (c + j) by ring]
        exact eA _ _ (by omega) (by omega)
    | tget r c =>
      obtain ⟨f1, f2⟩ := hf
      obtain ⟨h', g', e, fl, p1, p2⟩ := scatter s.h (buf s.h q) C.ccap C.rows C.cols C.rows C.cols (buf s.h p) (fun i j => r * A.ccap + c + i + j * A.ccap)
        (fun i j => i * C.ccap + j) (fun i _ => i) (fun _ j => j) v2.bl c2 lC (fun i j hi hj => ⟨rfl, hi, hj⟩) (fun _ _ _ _ _ _ _ _ e1 e2 => ⟨e1, e2⟩) v1.bl dj
        (fun i j hi hj => by have := lA (r + j) (c + i) (by omega) (by omega); rw [Nat.add_mul] at this; omega)
      refine ⟨h', ?_, filled_congr fl ?_⟩
      · simp only [rawMatTGet, rawGetCol, clamp_fit f1, clamp_fit f2]; exact e
      · intro i j hi hj
        rw [p1 i j hi hj, show r * A.ccap + c + i + j * A.ccap = (r + j) * A.ccap + (c + i) by ring]
        exact eA _ _ (by omega) (by omega)
    | put r c =>
      obtain ⟨f1, f2⟩ := hf
      obtain ⟨h', g', e, fl, p1, p2⟩ := scatter s.h (buf s.h q) C.ccap C.rows C.cols A.rows A.cols (buf s.h p) (fun i j => i * A.ccap + j)
        (fun i j => r * C.ccap + c + i * C.ccap + j) (fun i _ => r + i) (fun _ j => c + j) v2.bl c2 lC (fun i j hi hj => ⟨by ring, by omega, by omega⟩)
        (fun _ _ _ _ _ _ _ _ e1 e2 => ⟨by omega, by omega⟩) v1.bl dj (fun i j hi hj => lA i j (by omega) (by omega))
      refine ⟨h', ?_, filled_congr fl ?_⟩
      · simp only [rawMatPut, clamp_fit f1, clamp_fit f2, memcpy_ne dj]; exact e
      · intro i j hi hj
        simp only [partEl]
        by_cases c' : r ≤ i ∧ i < r + A.rows ∧ c ≤ j ∧ j < c + A.cols
        · rw [if_pos c']
          have := p1 (i - r) (j - c) (by omega) (by omega)
          rw [show r + (i - r) = i by omega, show c + (j - c) = j by omega] at this
          rw [this]
          exact eA _ _ (by omega) (by omega)
        · rw [if_neg c', p2 i j (fun i' j' hi' hj' e => c' (by omega))]
          exact eC i j hi hj
    | tput r c =>
      obtain ⟨f1, f2⟩ := hf
      obtain ⟨h', g', e, fl, p1, p2⟩ := scatter s.h (buf s.h q) C.ccap C.rows C.cols A.rows A.cols (buf s.h p) (fun i j => i * A.ccap + j)
        (fun i j => r * C.ccap + c + i + j * C.ccap) (fun _ j => r + j) (fun i _ => c + i) v2.bl c2 lC (fun i j hi hj => ⟨by ring, by omega, by omega⟩)
        (fun _ _ _ _ _ _ _ _ e1 e2 => ⟨by omega, by omega⟩) v1.bl dj (fun i j hi hj => lA i j (by omega) (by omega))
      refine ⟨h', ?_, filled_congr fl ?_⟩
      · simp only [rawMatTPut, rawPutCol, clamp_fit f1, clamp_fit f2]; exact e
      · intro i j hi hj
        simp only [partEl]
        by_cases c' : r ≤ i ∧ i < r + A.cols ∧ c ≤ j ∧ j < c + A.rows
        · rw [if_pos c']
          have := p1 (j - c) (i - r) (by omega) (by omega)
          rw [show r + (i - r) = i by omega, show c + (j - c) = j by omega] at this
          rw [this]
          exact eA _ _ (by omega) (by omega)
        · rw [if_neg c', p2 i j (fun i' j' hi' hj' e => c' (by omega))]
          exact eC i j hi hj
    | vget pos =>
      have f1 : pos + C.cols ≤ A.cols := hf
      have rA := (w1.vec (Or.inl k1)).2
      have rC := (w2.vec (Or.inl k2)).1
      obtain ⟨h', g', e, fl, p1, p2⟩ := scatter1 s.h (buf s.h q) C.ccap C.rows C.cols C.cols (buf s.h p) (fun j => pos + j) (fun j => 0 + j) (fun _ => 0) (fun j => j)
        v2.bl c2 lC (fun j hj => ⟨by ring, by omega, hj⟩) (fun _ _ _ _ _ e => e) v1.bl dj (fun j hj => by have := lA 0 (pos + j) (by omega) (by omega); omega)
      refine ⟨h', ?_, filled_congr fl ?_⟩
      · simp only [memcpy_ne dj]; exact e
      · intro i j hi hj
        obtain rfl : i = 0 := by omega
        rw [p1 j hj]
        have := eA 0 (pos + j) (by omega) (by omega)
        rwa [Nat.zero_mul, Nat.zero_add] at this
    | vput pos =>
      have f1 : pos + A.cols ≤ C.cols := hf
      have rA := (w1.vec (Or.inl k1)).2
      have rC := (w2.vec (Or.inl k2)).1
      obtain ⟨h', g', e, fl, p1, p2⟩ := scatter1 s.h (buf s.h q) C.ccap C.rows C.cols A.cols (buf s.h p) (fun j => 0 + j) (fun j => pos + j) (fun _ => 0) (fun j => pos + j)
        v2.bl c2 lC (fun j hj => ⟨by ring, by omega, by omega⟩) (fun _ _ _ _ _ e => by omega) v1.bl dj (fun j hj => by have := lA 0 j (by omega) (by omega); omega)
      refine ⟨h', ?_, filled_congr fl ?_⟩
      · simp only [memcpy_ne dj]; exact e
      · intro i j hi hj
        obtain rfl : i = 0 := by omega
        simp only [partEl]
        by_cases c' : pos ≤ j ∧ j < pos + A.cols
        · rw [if_pos c']
          have h1 := p1 (j - pos) (by omega)
          rw [show pos + (j - pos) = j by omega] at h1
          rw [h1]
          have := eA 0 (j - pos) (by omega) (by omega)
          rwa [Nat.zero_mul] at this
        · rw [if_neg c', p2 0 j (fun j' hj' e => c' (by omega))]
          exact eC 0 j hi hj
    | getRow k =>
      obtain ⟨f1, f2⟩ := hf
      have rC := (w2.vec (Or.inl k2)).1
      obtain ⟨h', g', e, fl, p1, p2⟩ := scatter1 s.h (buf s.h q) C.ccap C.rows C.cols A.cols (buf s.h p) (fun j => k * A.ccap + j) (fun j => 0 + j) (fun _ => 0) (fun j => j)
        v2.bl c2 lC (fun j hj => ⟨by ring, by omega, by omega⟩) (fun _ _ _ _ _ e => e) v1.bl dj (fun j hj => lA k j (by omega) (by omega))
      refine ⟨h', ?_, filled_congr fl ?_⟩
      · simp only [memcpy_ne dj]; exact e
      · intro i j hi hj
        obtain rfl : i = 0 := by omega
        rw [p1 j (by omega)]
        exact eA k j (by omega) (by omega)
    | getCol k =>
      obtain ⟨f1, f2⟩ := hf
      have rC := (w2.vec (Or.inl k2)).1
      obtain ⟨h', g', e, fl, p1, p2⟩ := scatter1 s.h (buf s.h q) C.ccap C.rows C.cols A.rows (buf s.h p) (fun j => k + j * A.ccap) (fun j => 0 + j) (fun _ => 0) (fun j => j)
        v2.bl c2 lC (fun j hj => ⟨by ring, by omega, by omega⟩) (fun _ _ _ _ _ e => e) v1.bl dj (fun j hj => by have := lA j k (by omega) (by omega); omega)
      refine ⟨h', ?_, filled_congr fl ?_⟩
      · exact e
      · intro i j hi hj
        obtain rfl : i = 0 := by omega
        rw [p1 j (by omega), Nat.add_comm]
        exact eA j k (by omega) (by omega)
    | putRow k =>
      obtain ⟨f1, f2⟩ := hf
      have rA := (w1.vec (Or.inl k1)).2
      obtain ⟨h', g', e, fl, p1, p2⟩ := scatter1 s.h (buf s.h q) C.ccap C.rows C.cols C.cols (buf s.h p) (fun j => 0 + j) (fun j => k * C.ccap + j) (fun _ => k) (fun j => j)
        v2.bl c2 lC (fun j hj => ⟨rfl, by omega, by omega⟩) (fun _ _ _ _ _ e => e) v1.bl dj (fun j hj => by have := lA 0 j (by omega) (by omega); omega)
      refine ⟨h', ?_, filled_congr fl ?_⟩
      · simp only [memcpy_ne dj]; exact e
      · intro i j hi hj
        simp only [partEl]
        by_cases c' : i = k
        · subst c'
          rw [if_pos rfl, p1 j hj]
          have := eA 0 j (by omega) (by omega)
          rwa [Nat.zero_mul] at this
        · rw [if_neg c', p2 i j (fun j' hj' e => c' e.1.symm)]
          exact eC i j hi hj
    | putCol k =>
      obtain ⟨f1, f2⟩ := hf
      have rA := (w1.vec (Or.inl k1)).2
      obtain ⟨h', g', e, fl, p1, p2⟩ := scatter1 s.h (buf s.h q) C.ccap C.rows C.cols C.rows (buf s.h p) (fun j => 0 + j) (fun j => k + j * C.ccap) (fun j => j) (fun _ => k)
        v2.bl c2 lC (fun j hj => ⟨by ring, hj, f2⟩) (fun _ _ _ _ e _ => e) v1.bl dj (fun j hj => by have := lA 0 j (by omega) (by omega); omega)
      refine ⟨h', ?_, filled_congr fl ?_⟩
      · exact e
      · intro i j hi hj
        simp only [partEl]
        by_cases c' : j = k
        · subst c'
          rw [if_pos rfl, p1 i hi]
          have := eA 0 i (by omega) (by omega)
          rwa [Nat.zero_mul] at this
        · rw [if_neg c', p2 i j (fun j' hj' e => c' e.2.symm)]
          exact eC i j hi hj
  obtain ⟨h', e, fl⟩ := key
  refine ⟨h', ?_, fl⟩
  unfold part
  simp only [v1.hd, v2.hd, Res.bind]
  rw [if_neg (fun c => hr.1 c hf), e]

/-- Two cells exchanged. -/
theorem exch (h : Hp K) (b cap rows cols i1 j1 i2 j2 : Nat) (hb : b ∈ h.live) (hc : cols ≤ cap) (hlen : ∀ i j, i < rows → j < cols → i * cap + j < h.len b)
    (h1 : i1 < rows) (h2 : j1 < cols) (h3 : i2 < rows) (h4 : j2 < cols) :
    ∃ h', ((rd h b (i1 * cap + j1)).bind fun tmp => (rd h b (i2 * cap + j2)).bind fun x => (wr h b (i1 * cap + j1) x).bind fun h => wr h b (i2 * cap + j2) tmp) = .ok h' ∧
      Filled h h' b cap rows cols fun i j => if i = i2 ∧ j = j2 then h.dat b (i1 * cap + j1) else if i = i1 ∧ j = j1 then h.dat b (i2 * cap + j2) else h.dat b (i * cap + j) := by
  have l1 := hlen _ _ h1 h2
  have l2 := hlen _ _ h3 h4
  have f1 := set_filled h b cap rows cols i1 j1 (h.dat b (i2 * cap + j2)) h1 h2 hc
  have f2 := set_filled { h with dat := fun b' k' => if b' = b ∧ k' = i1 * cap + j1 then h.dat b (i2 * cap + j2) else h.dat b' k' } b cap rows cols i2 j2 (h.dat b (i1 * cap + j1)) h3 h4 hc
  refine ⟨_, ?_, f1.comp f2 ?_⟩
  · simp only [rd, wr, Res.bind, if_pos (show b ∈ h.live ∧ i1 * cap + j1 < h.len b from ⟨hb, l1⟩), if_pos (show b ∈ h.live ∧ i2 * cap + j2 < h.len b from ⟨hb, l2⟩)]
  · intro i j hi hj
    dsimp only
    by_cases c : i = i2 ∧ j = j2
    · rw [if_pos c, if_pos c]
    · rw [if_neg c, if_neg c]
      by_cases c2 : i = i1 ∧ j = j1
      · rw [if_pos c2, if_pos ⟨rfl, by rw [c2.1, c2.2]⟩]
      · rw [if_neg c2, if_neg (fun e => c2 (cell_inj (by omega) (by omega) e.2))]

theorem swapRow_filled {h : Hp K} {p b rc cc rows cols : Nat} (v : Valid h p b rc cc rows cols) (r1 r2 : Nat) :
    (r1 < rows ∧ r2 < rows → ∃ h', zMatSwapRow p r1 r2 h = .ok (h', true) ∧ Filled h h' b cc rows cols fun i j => h.dat b (swapIx r1 r2 i * cc + j)) ∧
    (¬(r1 < rows ∧ r2 < rows) → zMatSwapRow p r1 r2 h = .ok (h, false)) := by
  constructor
  swap
  · intro hn
    unfold zMatSwapRow
    simp only [v.hd, Res.bind]
    rw [if_pos (by omega)]
  rintro ⟨h1, h2⟩
  have lC : ∀ i j, i < rows → j < cols → i * cc + j < h.len b := fun i j hi hj => by
    have := v.rows; have := v.cols
    rw [v.len]
    calc i * cc + j < (i + 1) * cc := by rw [Nat.add_mul, Nat.one_mul]; omega
      _ ≤ rc * cc := Nat.mul_le_mul_right _ (by omega)
  have hc := v.cols
  obtain ⟨h', e, fl⟩ := forUpM_ok (lo := 0) (hi := cols) (fun j h => (rd h b (r1 * cc + j)).bind fun tmp => (rd h b (r2 * cc + j)).bind fun x =>
      (wr h b (r1 * cc + j) x).bind fun h => wr h b (r2 * cc + j) tmp) h
    (fun n t => Filled h t b cc rows cols fun i j => if j < n then h.dat b (swapIx r1 r2 i * cc + j) else h.dat b (i * cc + j)) (Nat.zero_le _)
    ⟨rfl, rfl, rfl, rfl, rfl, fun _ _ => rfl, fun i j _ => by simp⟩ (by
      intro n t _ hn ft
      obtain ⟨t', e, f2⟩ := exch t b cc rows cols r1 n r2 n (by rw [ft.live]; exact v.bl) hc (by rw [ft.len]; exact lC) h1 hn h2 hn
      refine ⟨t', e, ft.comp f2 ?_⟩
      intro i j hi hj
      have q1 := ft.el r1 n (by omega)
      have q2 := ft.el r2 n (by omega)
      have q3 := ft.el i j (by omega)
      rw [if_pos ⟨h1, hn⟩, if_neg (lt_irrefl n)] at q1
      rw [if_pos ⟨h2, hn⟩, if_neg (lt_irrefl n)] at q2
      rw [if_pos ⟨hi, hj⟩] at q3
      rw [q1, q2, q3]
      unfold swapIx
      by_cases cj : j = n
      · subst cj
        simp only [and_true, Nat.lt_succ_self, if_true, lt_irrefl, if_false]
        by_cases a1 : i = r1 <;> by_cases a2 : i = r2 <;> simp_all
      · simp only [cj, and_false, if_false]
        by_cases d : j < n
        · rw [if_pos d, if_pos (show j < n + 1 by omega)]
        · rw [if_neg d, if_neg (show ¬j < n + 1 by omega)])
  refine ⟨h', ?_, filled_congr fl fun i j hi hj => if_pos hj⟩
  unfold zMatSwapRow
  simp only [v.hd, Res.bind, bufOf]
  rw [if_neg (by omega)]
  simp only [Res.bind] at e
  rw [e]

theorem swapCol_filled {h : Hp K} {p b rc cc rows cols : Nat} (v : Valid h p b rc cc rows cols) (c1 c2 : Nat) :
    (c1 < cols ∧ c2 < cols → ∃ h', zMatSwapCol p c1 c2 h = .ok (h', true) ∧ Filled h h' b cc rows cols fun i j => h.dat b (i * cc + swapIx c1 c2 j)) ∧
    (¬(c1 < cols ∧ c2 < cols) → zMatSwapCol p c1 c2 h = .ok (h, false)) := by
  constructor
  swap
  · intro hn
    unfold zMatSwapCol
    simp only [v.hd, Res.bind]
    rw [if_pos (by omega)]
  rintro ⟨h1, h2⟩
  have lC : ∀ i j, i < rows → j < cols → i * cc + j < h.len b := fun i j hi hj => by
    have := v.rows; have := v.cols
    rw [v.len]
    calc i * cc + j < (i + 1) * cc := by rw [Nat.add_mul, Nat.one_mul]; omega
      _ ≤ rc * cc := Nat.mul_le_mul_right _ (by omega)
  have hc := v.cols
  obtain ⟨h', e, fl⟩ := forUpM_ok (lo := 0) (hi := rows) (fun i h => (rd h b (i * cc + c1)).bind fun tmp => (rd h b (i * cc + c2)).bind fun x =>
      (wr h b (i * cc + c1) x).bind fun h => wr h b (i * cc + c2) tmp) h
    (fun n t => Filled h t b cc rows cols fun i j => if i < n then h.dat b (i * cc + swapIx c1 c2 j) else h.dat b (i * cc + j)) (Nat.zero_le _)
    ⟨rfl, rfl, rfl, rfl, rfl, fun _ _ => rfl, fun i j _ => by simp⟩ (by
      intro n t _ hn ft
      obtain ⟨t', e, f2⟩ := exch t b cc rows cols n c1 n c2 (by rw [ft.live]; exact v.bl) hc (by rw [ft.len]; exact lC) hn h1 hn h2
      refine ⟨t', e, ft.comp f2 ?_⟩
      intro i j hi hj
      have q1 := ft.el n c1 (by omega)
      have q2 := ft.el n c2 (by omega)
      have q3 := ft.el i j (by omega)
      rw [if_pos ⟨hn, h1⟩, if_neg (lt_irrefl n)] at q1
      rw [if_pos ⟨hn, h2⟩, if_neg (lt_irrefl n)] at q2
      rw [if_pos ⟨hi, hj⟩] at q3
      rw [q1, q2, q3]
      unfold swapIx
      by_cases cj : i = n
      · subst cj
        simp only [true_and, Nat.lt_succ_self, if_true, lt_irrefl, if_false]
        by_cases a1 : j = c1 <;> by_cases a2 : j = c2 <;> simp_all
      · simp only [cj, false_and, if_false]
        by_cases d : i < n
        · rw [if_pos d, if_pos (show i < n + 1 by omega)]
        · rw [if_neg d, if_neg (show ¬i < n + 1 by omega)])
  refine ⟨h', ?_, filled_congr fl fun i j hi hj => if_pos hi⟩
  unfold zMatSwapCol
  simp only [v.hd, Res.bind, bufOf]
  rw [if_neg (by omega)]
  simp only [Res.bind] at e
  rw [e]

theorem swapIx_lt {a b i n : Nat} (ha : a < n) (hb : b < n) (hi : i < n) : swapIx a b i < n := by unfold swapIx; split <;> [exact hb; split <;> assumption]

/-- One step of a client. -/
theorem pstep_ok (tol : K) (avail : Nat → Bool) {s : Cl K} {a : Vals K} (g : Agrees s a) (o : POp K) (hf : PFits a o) :
    ∃ s' got, pstep tol avail s o = .ok s' ∧ Agrees s' (pspec tol got a o) ∧ (got = false → Refused avail s.h) := by
  cases o with
  | base o => exact dstep_ok tol avail g o hf
  | part f x z =>
    simp only [pstep, pspec]
    rw [← g.kind x, ← g.kind z]
    by_cases hk : (s.var x).1 = (partKinds f).1 ∧ (s.var z).1 = (partKinds f).2
    · rw [if_pos hk, if_pos hk]
      cases hx : (s.var x).2 with
      | none => exact ⟨s, true, rfl, by rw [(g.null x).1 hx]; exact g, by simp⟩
      | some p =>
        obtain ⟨A, hA⟩ := g.some hx
        cases hz : (s.var z).2 with
        | none => exact ⟨s, true, rfl, by rw [hA]; simp only; rw [upd_none _ _ _ ((g.null z).1 hz)]; exact g, by simp⟩
        | some q =>
          obtain ⟨C, hC⟩ := g.some hz
          obtain ⟨b1, b2⟩ := part_filled g f hx hz hA hC hk.1 hk.2 hf
          by_cases hs : PartFits f A C
          · obtain ⟨h', e, fl⟩ := b1 hs
            refine ⟨{ s with h := h' }, true, by simp only [e, Res.bind], ?_, by simp⟩
            rw [hA]
            exact agrees_withEl g z q C hz hC h' _ (partEl f A C) fl (fun _ _ _ _ => rfl) _ (if_pos hs)
          · refine ⟨s, true, by simp only [b2 hs, Res.bind], ?_, by simp⟩
            rw [hA]
            exact upd_id g z _ (fun C' hC' => by rw [hC] at hC'; cases hC'; exact if_neg hs)
    · rw [if_neg hk, if_neg hk]
      exact ⟨s, true, rfl, g, by simp⟩
  | swapRow x r1 r2 =>
    simp only [pstep, pspec]
    rw [← g.kind x]
    by_cases hk : (s.var x).1 = .mat
    · rw [if_pos hk, if_pos hk]
      cases hx : (s.var x).2 with
      | none => exact ⟨s, true, rfl, by rw [upd_none _ _ _ ((g.null x).1 hx)]; exact g, by simp⟩
      | some p =>
        obtain ⟨A, hA⟩ := g.some hx
        have w := g.val x p A hx hA
        obtain ⟨b1, b2⟩ := swapRow_filled (g.valid x p A hx hA) r1 r2
        by_cases hs : r1 < A.rows ∧ r2 < A.rows
        · obtain ⟨h', e, fl⟩ := b1 hs
          refine ⟨{ s with h := h' }, true, by simp only [e, Res.bind], ?_, by simp⟩
          exact agrees_withEl g x p A hx hA h' _ (fun i j => A.el (swapIx r1 r2 i) j) fl
            (fun i j hi hj => w.el _ _ (lt_of_lt_of_le (swapIx_lt hs.1 hs.2 hi) w.rows) (lt_of_lt_of_le hj w.cols)) _ (if_pos hs)
        · refine ⟨s, true, by simp only [b2 hs, Res.bind], ?_, by simp⟩
          exact upd_id g x _ (fun C' hC' => by rw [hA] at hC'; cases hC'; exact if_neg hs)
    · rw [if_neg hk, if_neg hk]
      exact ⟨s, true, rfl, g, by simp⟩
  | swapCol x c1 c2 =>
    simp only [pstep, pspec]
    rw [← g.kind x]
    by_cases hk : (s.var x).1 = .mat
    · rw [if_pos hk, if_pos hk]
      cases hx : (s.var x).2 with
      | none => exact ⟨s, true, rfl, by rw [upd_none _ _ _ ((g.null x).1 hx)]; exact g, by simp⟩
      | some p =>
        obtain ⟨A, hA⟩ := g.some hx
        have w := g.val x p A hx hA
        obtain ⟨b1, b2⟩ := swapCol_filled (g.valid x p A hx hA) c1 c2
        by_cases hs : c1 < A.cols ∧ c2 < A.cols
        · obtain ⟨h', e, fl⟩ := b1 hs
          refine ⟨{ s with h := h' }, true, by simp only [e, Res.bind], ?_, by simp⟩
          exact agrees_withEl g x p A hx hA h' _ (fun i j => A.el i (swapIx c1 c2 j)) fl
            (fun i j hi hj => w.el _ _ (lt_of_lt_of_le hi w.rows) (lt_of_lt_of_le (swapIx_lt hs.1 hs.2 hj) w.cols)) _ (if_pos hs)
        · refine ⟨s, true, by simp only [b2 hs, Res.bind], ?_, by simp⟩
          exact upd_id g x _ (fun C' hC' => by rw [hA] at hC'; cases hC'; exact if_neg hs)
    · rw [if_neg hk, if_neg hk]
      exact ⟨s, true, rfl, g, by simp⟩

/-! ## Histories -/

/-- The values along a history. -/
noncomputable def pspecRun (tol : K) : List (POp K) → List Bool → Vals K → Vals K
  | o :: l, b :: bs, a => pspecRun tol l bs (pspec tol b a o)
  | _, _, a => a

/-- The obligations of the client along a history, whether memory is given out or not. -/
def PAllFit (tol : K) : List (POp K) → Vals K → Prop
  | [], _ => True
  | o :: l, a => PFits a o ∧ ∀ got, PAllFit tol l (pspec tol got a o)

theorem prun_ok (tol : K) (avail : Nat → Bool) (l : List (POp K)) : ∀ (s : Cl K) (a : Vals K), Agrees s a → PAllFit tol l a →
    ∃ s' gots, prun tol avail l s = .ok s' ∧ gots.length = l.length ∧ Agrees s' (pspecRun tol l gots a) ∧ ((∀ n, avail n = true) → ∀ b ∈ gots, b = true) := by
  induction l with
  | nil => intro s a g _; exact ⟨s, [], rfl, rfl, g, by simp⟩
  | cons o l ih =>
    intro s a g hf
    obtain ⟨s1, got, e, g1, hr⟩ := pstep_ok tol avail g o hf.1
    obtain ⟨s2, gots, e2, hl, g2, hr2⟩ := ih s1 _ g1 (hf.2 got)
    refine ⟨s2, got :: gots, by simp only [prun, e, Res.bind, e2], by simp [hl], g2, ?_⟩
    intro ha b hb
    rcases List.mem_cons.1 hb with rfl | hb
    · cases h : b
      · rcases hr h with h1 | h1 <;> rw [ha] at h1 <;> cases h1
      · rfl
    · exact hr2 ha b hb

/-- C240: the functions on parts, in any history: no undefined behaviour; the destination takes the part, or the part takes the source, and every other element and object
keeps its value. -/
theorem part_history (tol : K) (avail : Nat → Bool) (l : List (POp K)) (t next : Nat) (hdr : Nat → Hdr) (len : Nat → Nat) (d : Nat → Nat → K) (hf : PAllFit tol l []) :
    ∃ s gots, prun tol avail l ⟨[], ⟨t, next, [], hdr, len, d⟩⟩ = .ok s ∧ gots.length = l.length ∧ Agrees s (pspecRun tol l gots []) ∧
      ((∀ n, avail n = true) → ∀ b ∈ gots, b = true) :=
  prun_ok tol avail l _ _ (agrees_empty d hdr len t next) hf

/-- C240: a function that refuses does not touch the heap, and it refuses exactly what does not fit. -/
theorem part_answer {s : Cl K} {a : Vals K} (g : Agrees s a) (f : Part) {x z p q : Nat} {A C : Arr K} (hx : (s.var x).2 = some p) (hz : (s.var z).2 = some q)
    (hA : (a.var x).2 = some A) (hC : (a.var z).2 = some C) (k1 : (s.var x).1 = (partKinds f).1) (k2 : (s.var z).1 = (partKinds f).2) (hne : x ≠ z) :
    ∃ h' ok, part f p q s.h = .ok (h', ok) ∧ (ok = true ↔ PartFits f A C) ∧ (ok = false → h' = s.h) := by
  obtain ⟨b1, b2⟩ := part_filled g f hx hz hA hC k1 k2 hne
  by_cases h : PartFits f A C
  · obtain ⟨h', e, _⟩ := b1 h
    exact ⟨h', true, e, by simp [h], by simp⟩
  · exact ⟨s.h, false, b2 h, by simp [h], fun _ => rfl⟩

/-- C240: what is put at a place is found there. -/
theorem put_get (r c : Nat) (A C : Arr K) (i j : Nat) (hi : i < A.rows) (hj : j < A.cols) : partEl (.get r c) { C with el := partEl (.put r c) A C } A i j = A.el i j := by
  simp only [partEl]
  rw [if_pos (by omega), Nat.add_sub_cancel_left, Nat.add_sub_cancel_left]

/-! ## Not vacuous -/

def exPart : List (POp ℚ) := [.base (.base (.base (.base (.create .mat 3 4 [1, 2, 3, 4, 5, 6, 7, 8, 9, 10, 11, 12])))), .base (.base (.base (.base (.create .mat 2 2 [20, 21, 22, 23])))),
  .base (.base (.base (.base (.create .vec 1 3 [30, 31, 32])))), .part (.tput 1 2) 1 0, .swapRow 0 0 2, .swapCol 0 0 3, .part (.getCol 0) 0 2, .part (.get 0 1) 0 1,
  .part (.putCol 1) 2 0, .part (.put 2 0) 1 0]

def exPartRead : Res (List ℚ) :=
  (prun 0 (fun _ => true) exPart ⟨[], ⟨0, 0, [], fun _ => {}, fun _ => 0, fun _ _ => 7⟩⟩).bind fun s =>
  match (s.var 0).2, (s.var 1).2, (s.var 2).2 with
  | some p, some q, some r => (zMatElem p 0 0 s.h).bind fun a => (zMatElem p 0 1 s.h).bind fun b => (zMatElem p 2 3 s.h).bind fun c => (zMatElem q 0 0 s.h).bind fun d =>
    (zMatElem q 1 1 s.h).bind fun e => (zMatElem r 0 1 s.h).bind fun x => .ok [a, b, c, d, e, x]
  | _, _, _ => .fail

example : PAllFit 0 exPart ([] : Vals ℚ) := by
  simp [PAllFit, PFits, DFits, MFits, AFits, Fits, exPart, rowsOf]

example : exPartRead = .ok [23, 23, 1, 10, 20, 22] := by decide +kernel

end Zm.Obj
