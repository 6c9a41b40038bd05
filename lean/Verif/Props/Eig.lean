import Verif.Model.Eig
import Verif.Props.LQ
import Verif.Props.Stat
import Mathlib.Tactic.Linarith
import Mathlib.Tactic.FieldSimp
import Mathlib.Tactic.LinearCombination
import Mathlib.Tactic.IntervalCases
import Mathlib.Algebra.Field.Rat
import Mathlib.Algebra.Order.Ring.Rat

/-! # C72: Jacobi's method for symmetric matrices -/

set_option linter.unusedSectionVars false

namespace Zm.Eig
open Zm Misc LE Finset
variable {K : Type*} [Field K] [LinearOrder K] [IsStrictOrderedRing K]

/-! ## Specification -/

/-- The matrix is symmetric. -/
def Symm (n : Nat) (m : Nat → Nat → K) : Prop := ∀ p q, p < n → q < n → m p q = m q p

/-- The columns of `V` are orthonormal. -/
def OrthCols (n : Nat) (V : Nat → Nat → K) : Prop :=
  ∀ p q, p < n → q < n → ∑ k ∈ range n, V k p * V k q = if p = q then 1 else 0

/-- The rows of `V` are orthonormal. -/
def OrthRows (n : Nat) (V : Nat → Nat → K) : Prop :=
  ∀ p q, p < n → q < n → ∑ k ∈ range n, V p k * V q k = if p = q then 1 else 0

/-- The sum of the squares of the elements off the diagonal. -/
def offSq (n : Nat) (m : Nat → Nat → K) : K := ∑ p ∈ range n, ∑ q ∈ range n, if p = q then 0 else m p q * m p q

/-- `M V = V (D + c I)`: with `V` orthogonal, `D + c I` is similar to `M`. -/
def Similar (n : Nat) (M V D : Nat → Nat → K) (c : K) : Prop :=
  ∀ a p, a < n → p < n → ∑ q ∈ range n, M a q * V q p = ∑ r ∈ range n, V a r * D r p + c * V a p

/-! ## The rotation -/

/-- The matrix after a rotation. -/
def newM (c s x y : K) (i j : Nat) (m : Nat → Nat → K) (p q : Nat) : K :=
  if p = i then (if q = i then x else if q = j then 0 else c * m i q + s * m j q)
  else if p = j then (if q = i then 0 else if q = j then y else -s * m i q + c * m j q)
  else if q = i then c * m i p + s * m j p
  else if q = j then -s * m i p + c * m j p
  else m p q

/-- The base after a rotation. -/
def newV (c s : K) (i j : Nat) (V : Nat → Nat → K) (p q : Nat) : K :=
  if q = i then c * V p i + s * V p j else if q = j then -s * V p i + c * V p j else V p q

theorem rotLoop (c s x y : K) (n i j : Nat) (hi : i < n) (hj : j < n) (hij : i ≠ j) (m V : Nat → Nat → K) :
    ∀ p q, p < n → q < n →
      (forUp 0 n (rotBody c s i j) (set2 (set2 (set2 (set2 m i i x) j j y) i j 0) j i 0, V)).1 p q = newM c s x y i j m p q ∧
      (forUp 0 n (rotBody c s i j) (set2 (set2 (set2 (set2 m i i x) j j y) i j 0) j i 0, V)).2 p q = newV c s i j V p q := by
  have h := forUp_inv (lo := 0) (hi := n) (rotBody c s i j) (set2 (set2 (set2 (set2 m i i x) j j y) i j 0) j i 0, V)
    (fun k t => (∀ p q, t.1 p q = if ((p = i ∨ p = j) ∧ (q = i ∨ q = j)) ∨ ((p = i ∨ p = j) ∧ q < k) ∨ ((q = i ∨ q = j) ∧ p < k) then newM c s x y i j m p q else m p q) ∧
      (∀ p q, t.2 p q = if p < k then newV c s i j V p q else V p q)) (by omega) ?_ ?_
  · intro p q hp hq
    refine ⟨?_, ?_⟩
    · rw [h.1]
      split
      · rfl
      · rename_i g
        unfold newM
        rw [if_neg (by tauto), if_neg (by tauto), if_neg (by tauto), if_neg (by tauto)]
    · rw [h.2, if_pos hp]
  · refine ⟨fun p q => ?_, fun p q => by simp⟩
    simp only [set2, newM]
    grind
  · rintro k t - hk ⟨h1, h2⟩
    unfold rotBody
    have e2 : ∀ p q, (set2 (set2 t.2 k i (c * t.2 k i + s * t.2 k j)) k j (-s * t.2 k i + c * t.2 k j)) p q = if p < k + 1 then newV c s i j V p q else V p q := by
      intro p q
      simp only [set2, h2, newV]
      grind
    split
    · rename_i g
      refine ⟨fun p q => ?_, e2⟩
      simp only
      rw [h1]
      congr 1
      grind
    · rename_i g
      refine ⟨fun p q => ?_, e2⟩
      have gi : k ≠ i := fun e => g (Or.inl e)
      have gj : k ≠ j := fun e => g (Or.inr e)
      have a1 : t.1 i k = m i k := by rw [h1, if_neg (by omega)]
      have a2 : t.1 j k = m j k := by rw [h1, if_neg (by omega)]
      rw [a1, a2]
      have x1 : set2 (set2 t.1 i k (c * m i k + s * m j k)) j k (-s * m i k + c * m j k) i k = c * m i k + s * m j k := by
        rw [set2_ne_row _ _ hij, set2_same]
      dsimp only
      rw [x1]
      have x2 : set2 (set2 (set2 t.1 i k (c * m i k + s * m j k)) j k (-s * m i k + c * m j k)) k i (c * m i k + s * m j k) j k = -s * m i k + c * m j k := by
        rw [set2_ne_row _ _ (Ne.symm gj), set2_same]
      rw [x2]
      by_cases c1 : p = k ∧ q = j
      · obtain ⟨rfl, rfl⟩ := c1
        rw [set2_same, if_pos (by omega)]
        unfold newM
        rw [if_neg gi, if_neg gj, if_neg (Ne.symm hij), if_pos rfl]
      rw [set2_ne _ _ c1]
      by_cases c2 : p = k ∧ q = i
      · obtain ⟨rfl, rfl⟩ := c2
        rw [set2_same, if_pos (by omega)]
        unfold newM
        rw [if_neg gi, if_neg gj, if_pos rfl]
      rw [set2_ne _ _ c2]
      by_cases c3 : p = j ∧ q = k
      · obtain ⟨rfl, rfl⟩ := c3
        rw [set2_same, if_pos (by omega)]
        unfold newM
        rw [if_neg (Ne.symm hij), if_pos rfl, if_neg gi, if_neg gj]
      rw [set2_ne _ _ c3]
      by_cases c4 : p = i ∧ q = k
      · obtain ⟨rfl, rfl⟩ := c4
        rw [set2_same, if_pos (by omega)]
        unfold newM
        rw [if_pos rfl, if_neg gi, if_neg gj]
      rw [set2_ne _ _ c4, h1]
      by_cases c5 : (p = i ∨ p = j) ∧ (q = i ∨ q = j) ∨ (p = i ∨ p = j) ∧ q < k ∨ (q = i ∨ q = j) ∧ p < k
      · rw [if_pos c5, if_pos (by omega)]
      · rw [if_neg c5, if_neg (by omega)]

/-- What the angle satisfies. -/
theorem rot_angle (sqrt : K → K) (hs : SqrtOk sqrt) (m : Nat → Nat → K) (i j : Nat) (hd : m i j ≠ 0) :
    rotTi sqrt m i j ≠ 0 ∧ 0 < rotC sqrt m i j ∧
    rotC sqrt m i j * rotC sqrt m i j + rotS sqrt m i j * rotS sqrt m i j = 1 ∧
    rotC sqrt m i j * (rotAd m i j - rotTi sqrt m i j) + rotS sqrt m i j * m i j = 0 ∧
    rotC sqrt m i j * m i j = rotS sqrt m i j * (rotAd m i j + rotTi sqrt m i j) := by
  have hdd : 0 < m i j * m i j := mul_self_pos.2 hd
  have h0 : 0 ≤ rotAd m i j * rotAd m i j + m i j * m i j := by nlinarith [mul_self_nonneg (rotAd m i j)]
  obtain ⟨q1, q2⟩ := hs _ h0
  have ht2 : rotTi sqrt m i j * rotTi sqrt m i j = rotAd m i j * rotAd m i j + m i j * m i j := by
    unfold rotTi
    dsimp only
    split
    · rw [neg_mul_neg]; exact q2
    · exact q2
  have ht : rotTi sqrt m i j ≠ 0 := by
    intro e
    rw [e] at ht2
    nlinarith [mul_self_nonneg (rotAd m i j)]
  have hr : 0 ≤ rotAd m i j / 2 / rotTi sqrt m i j := by
    rw [div_div, div_eq_mul_inv]
    have : 0 ≤ rotAd m i j * rotTi sqrt m i j := by
      unfold rotTi
      dsimp only
      split
      · rename_i g; nlinarith
      · rename_i g; exact mul_nonneg (not_lt.1 g) q1
    have e : rotAd m i j * (2 * rotTi sqrt m i j)⁻¹ = rotAd m i j * rotTi sqrt m i j / (2 * (rotTi sqrt m i j * rotTi sqrt m i j)) := by field_simp
    rw [e]
    exact div_nonneg this (mul_nonneg (by norm_num) (mul_self_nonneg _))
  obtain ⟨c1, c2⟩ := hs (1 / 2 + rotAd m i j / 2 / rotTi sqrt m i j) (by linarith [show (0:K) < 1/2 by norm_num])
  have hc2 : rotC sqrt m i j * rotC sqrt m i j = 1 / 2 + rotAd m i j / 2 / rotTi sqrt m i j := c2
  have hc : 0 < rotC sqrt m i j := by
    rcases lt_or_eq_of_le (show 0 ≤ rotC sqrt m i j from c1) with g | g
    · exact g
    · rw [← g] at hc2; linarith [show (0:K) < 1/2 by norm_num]
  have hc' : rotC sqrt m i j ≠ 0 := ne_of_gt hc
  have hct : rotC sqrt m i j * rotC sqrt m i j * (2 * rotTi sqrt m i j) = rotTi sqrt m i j + rotAd m i j := by
    rw [hc2]; field_simp
  have hst : rotS sqrt m i j * (2 * rotTi sqrt m i j * rotC sqrt m i j) = m i j := by
    unfold rotS; field_simp
  generalize rotC sqrt m i j = c at *
  generalize rotS sqrt m i j = s at *
  generalize rotTi sqrt m i j = t at *
  generalize rotAd m i j = a at *
  generalize m i j = d at *
  refine ⟨ht, hc, ?_, ?_, ?_⟩
  · have : 4 * (t * t) * (c * c) ≠ 0 := by positivity
    apply mul_left_cancel₀ this
    linear_combination (2 * t * (c * c) + (t + a) - 2 * t) * hct + (2 * t * c * s + d) * hst - ht2
  · have : 2 * t * c ≠ 0 := by positivity
    apply mul_left_cancel₀ this
    linear_combination (a - t) * hct + d * hst - ht2
  · linear_combination (-c) * hst + s * hct

/-! ## The invariant -/

theorem split2 (n i j : Nat) (hi : i < n) (hj : j < n) (hij : i ≠ j) (f : Nat → K) :
    ∑ k ∈ range n, f k = f i + f j + ∑ k ∈ ((range n).erase i).erase j, f k := by
  rw [← add_sum_erase (range n) f (mem_range.2 hi), ← add_sum_erase ((range n).erase i) f (mem_erase.2 ⟨Ne.symm hij, mem_range.2 hj⟩), add_assoc]

/-- The state between two rotations. -/
structure JInv (n : Nat) (M : Nat → Nat → K) (c : K) (d V : Nat → Nat → K) : Prop where
  symm : Symm n d
  orth : OrthCols n V
  sim : Similar n M V d c

theorem newM_symm (c s x y : K) (n i j : Nat) (hij : i ≠ j) (m : Nat → Nat → K) (h : Symm n m) : Symm n (newM c s x y i j m) := by
  intro p q hp hq
  have := h p q hp hq
  unfold newM
  by_cases p1 : p = i <;> by_cases p2 : p = j <;> by_cases q1 : q = i <;> by_cases q2 : q = j <;> simp_all

theorem newV_orth (c s : K) (hcs : c * c + s * s = 1) (n i j : Nat) (hi : i < n) (hj : j < n) (hij : i ≠ j) (V : Nat → Nat → K) (h : OrthCols n V) :
    OrthCols n (newV c s i j V) := by
  have bil : ∀ (a b a' b' : K) (p p' q q' : Nat), p < n → p' < n → q < n → q' < n →
      ∑ k ∈ range n, (a * V k p + b * V k p') * (a' * V k q + b' * V k q') =
        a * a' * (if p = q then 1 else 0) + a * b' * (if p = q' then 1 else 0) + b * a' * (if p' = q then 1 else 0) + b * b' * (if p' = q' then 1 else 0) := by
    intro a b a' b' p p' q q' h1 h2 h3 h4
    rw [← h p q h1 h3, ← h p q' h1 h4, ← h p' q h2 h3, ← h p' q' h2 h4]
    simp only [mul_sum, ← sum_add_distrib]
    exact sum_congr rfl fun k _ => by ring
  have form : ∀ q, q < n → ∃ a b : K, ∃ q1 q2, q1 < n ∧ q2 < n ∧ (∀ k, newV c s i j V k q = a * V k q1 + b * V k q2) ∧
      ((q = i ∧ a = c ∧ b = s ∧ q1 = i ∧ q2 = j) ∨ (q = j ∧ a = -s ∧ b = c ∧ q1 = i ∧ q2 = j) ∨ (q ≠ i ∧ q ≠ j ∧ a = 1 ∧ b = 0 ∧ q1 = q ∧ q2 = q)) := by
    intro q hq
    by_cases e1 : q = i
    · exact ⟨c, s, i, j, hi, hj, fun k => by simp [newV, e1], Or.inl ⟨e1, rfl, rfl, rfl, rfl⟩⟩
    by_cases e2 : q = j
    · exact ⟨-s, c, i, j, hi, hj, fun k => by simp [newV, e2, Ne.symm hij], Or.inr (Or.inl ⟨e2, rfl, rfl, rfl, rfl⟩)⟩
    · exact ⟨1, 0, q, q, hq, hq, fun k => by simp [newV, e1, e2], Or.inr (Or.inr ⟨e1, e2, rfl, rfl, rfl, rfl⟩)⟩
  intro p q hp hq
  obtain ⟨a, b, p1, p2, g1, g2, fp, cp⟩ := form p hp
  obtain ⟨a', b', q1, q2, g3, g4, fq, cq⟩ := form q hq
  simp only [fp, fq]
  rw [bil _ _ _ _ _ _ _ _ g1 g2 g3 g4]
  rcases cp with ⟨rfl, rfl, rfl, rfl, rfl⟩ | ⟨rfl, rfl, rfl, rfl, rfl⟩ | ⟨n1, n2, rfl, rfl, rfl, rfl⟩ <;>
    rcases cq with ⟨rfl, rfl, rfl, rfl, rfl⟩ | ⟨rfl, rfl, rfl, rfl, rfl⟩ | ⟨n3, n4, rfl, rfl, rfl, rfl⟩ <;>
    simp_all [Ne.symm] <;> first | linear_combination hcs | ring | (simp only [if_neg (Ne.symm n1), if_neg (Ne.symm n2)]; ring) | skip

theorem newSim (c s ad ti : K) (n i j : Nat) (hi : i < n) (hj : j < n) (hij : i ≠ j) (M m V : Nat → Nat → K) (sh : K)
    (hcs : c * c + s * s = 1) (hs : Symm n m) (had : ad = (m i i - m j j) / 2)
    (h2 : c * (ad - ti) + s * m i j = 0) (h3 : c * m i j = s * (ad + ti)) (h : Similar n M V m sh) :
    Similar n M (newV c s i j V) (newM c s ((m i i + m j j) / 2 + ti) ((m i i + m j j) / 2 - ti) i j m) sh := by
  have hji : m j i = m i j := hs j i hj hi
  have ea : m i i = (m i i + m j j) / 2 + ad := by rw [had]; ring
  have eb : m j j = (m i i + m j j) / 2 - ad := by rw [had]; ring
  generalize (m i i + m j j) / 2 = as at *
  have lin : ∀ (a : Nat) (x y : K), ∑ q ∈ range n, M a q * (x * V q i + y * V q j) =
      x * ∑ q ∈ range n, M a q * V q i + y * ∑ q ∈ range n, M a q * V q j := by
    intro a x y
    simp only [mul_sum, ← sum_add_distrib]
    exact sum_congr rfl fun k _ => by ring
  have tail : ∀ (a p : Nat) (g : Nat → K), (∀ r, r < n → r ≠ i → r ≠ j → newM c s (as + ti) (as - ti) i j m r p = g r) →
      ∑ r ∈ range n, newV c s i j V a r * newM c s (as + ti) (as - ti) i j m r p =
        (c * V a i + s * V a j) * newM c s (as + ti) (as - ti) i j m i p + (-s * V a i + c * V a j) * newM c s (as + ti) (as - ti) i j m j p +
          ∑ r ∈ ((range n).erase i).erase j, V a r * g r := by
    intro a p g hg
    rw [split2 n i j hi hj hij]
    congr 1
    · congr 1
      · congr 1; simp [newV]
      · congr 1; simp [newV, Ne.symm hij]
    · refine sum_congr rfl fun r hr => ?_
      obtain ⟨r1, r2⟩ := mem_erase.1 hr
      obtain ⟨r3, r4⟩ := mem_erase.1 r2
      rw [hg r (mem_range.1 r4) r3 r1]
      congr 1
      simp [newV, r1, r3]
  intro a p ha hp
  have hi' := h a i ha hi
  have hj' := h a j ha hj
  have hp' := h a p ha hp
  rw [split2 n i j hi hj hij (fun r => V a r * m r i)] at hi'
  rw [split2 n i j hi hj hij (fun r => V a r * m r j)] at hj'
  rw [split2 n i j hi hj hij (fun r => V a r * m r p)] at hp'
  by_cases e1 : p = i
  · subst e1
    rw [tail a p (fun r => c * m r p + s * m r j) (by
      intro r hr r1 r2
      rw [hs r p hr hp, hs r j hr hj]
      simp [newM, r1, r2])]
    have f1 : ∀ q, newV c s p j V q p = c * V q p + s * V q j := fun q => by simp [newV]
    have f2 : newM c s (as + ti) (as - ti) p j m p p = as + ti := by simp [newM]
    have f3 : newM c s (as + ti) (as - ti) p j m j p = 0 := by simp [newM, Ne.symm hij]
    simp only [f1, f2, f3]
    rw [lin a c s, hi', hj']
    have f4 : ∑ r ∈ ((range n).erase p).erase j, V a r * (c * m r p + s * m r j) = c * ∑ r ∈ ((range n).erase p).erase j, V a r * m r p + s * ∑ r ∈ ((range n).erase p).erase j, V a r * m r j := by
      simp only [mul_sum, ← sum_add_distrib]
      exact sum_congr rfl fun k _ => by ring
    rw [f4]
    simp only [hji]
    generalize ∑ r ∈ ((range n).erase p).erase j, V a r * m r p = X1
    generalize ∑ r ∈ ((range n).erase p).erase j, V a r * m r j = X2
    linear_combination (V a p) * h2 + (V a j) * h3 + V a p * c * ea + V a j * s * eb
  by_cases e2 : p = j
  · subst e2
    rw [tail a p (fun r => -s * m r i + c * m r p) (by
      intro r hr r1 r2
      rw [hs r p hr hp, hs r i hr hi]
      simp [newM, r1, r2, Ne.symm hij])]
    have f1 : ∀ q, newV c s i p V q p = -s * V q i + c * V q p := fun q => by simp [newV, Ne.symm hij]
    have f2 : newM c s (as + ti) (as - ti) i p m i p = 0 := by simp [newM, Ne.symm hij]
    have f3 : newM c s (as + ti) (as - ti) i p m p p = as - ti := by simp [newM, Ne.symm hij]
    simp only [f1, f2, f3]
    rw [lin a (-s) c, hi', hj']
    have f4 : ∑ r ∈ ((range n).erase i).erase p, V a r * (-s * m r i + c * m r p) = -s * ∑ r ∈ ((range n).erase i).erase p, V a r * m r i + c * ∑ r ∈ ((range n).erase i).erase p, V a r * m r p := by
      simp only [mul_sum, ← sum_add_distrib]
      exact sum_congr rfl fun k _ => by ring
    rw [f4]
    simp only [hji]
    generalize ∑ r ∈ ((range n).erase i).erase p, V a r * m r i = X1
    generalize ∑ r ∈ ((range n).erase i).erase p, V a r * m r p = X2
    linear_combination (V a i) * h3 - (V a p) * h2 - V a i * s * ea + V a p * c * eb
  · rw [tail a p (fun r => m r p) (by
      intro r hr r1 r2
      simp [newM, r1, r2, e1, e2])]
    have f1 : ∀ q, newV c s i j V q p = V q p := fun q => by simp [newV, e1, e2]
    have f2 : newM c s (as + ti) (as - ti) i j m i p = c * m i p + s * m j p := by simp [newM, e1, e2]
    have f3 : newM c s (as + ti) (as - ti) i j m j p = -s * m i p + c * m j p := by simp [newM, e1, e2, Ne.symm hij]
    simp only [f1, f2, f3]
    rw [hp']
    linear_combination (-(V a i * m i p) - V a j * m j p) * hcs

theorem newOff (c s x y : K) (n i j : Nat) (hi : i < n) (hj : j < n) (hij : i ≠ j) (m : Nat → Nat → K) (hcs : c * c + s * s = 1) (hs : Symm n m) :
    offSq n (newM c s x y i j m) + 2 * (m i j * m i j) = offSq n m := by
  have row : ∀ f : Nat → Nat → K, offSq n f = (f i j * f i j + f j i * f j i) +
      (∑ q ∈ ((range n).erase i).erase j, (f i q * f i q + f j q * f j q)) +
      ∑ p ∈ ((range n).erase i).erase j, ((f p i * f p i + f p j * f p j) + ∑ q ∈ ((range n).erase i).erase j, if p = q then 0 else f p q * f p q) := by
    intro f
    unfold offSq
    rw [split2 n i j hi hj hij, split2 n i j hi hj hij (fun q => if i = q then 0 else f i q * f i q), split2 n i j hi hj hij (fun q => if j = q then 0 else f j q * f j q)]
    have e1 : ∑ q ∈ ((range n).erase i).erase j, (if i = q then 0 else f i q * f i q) = ∑ q ∈ ((range n).erase i).erase j, f i q * f i q :=
      sum_congr rfl fun q hq => if_neg (Ne.symm (mem_erase.1 (mem_erase.1 hq).2).1)
    have e2 : ∑ q ∈ ((range n).erase i).erase j, (if j = q then 0 else f j q * f j q) = ∑ q ∈ ((range n).erase i).erase j, f j q * f j q :=
      sum_congr rfl fun q hq => if_neg (Ne.symm (mem_erase.1 hq).1)
    have e3 : ∑ p ∈ ((range n).erase i).erase j, ∑ q ∈ range n, (if p = q then 0 else f p q * f p q) =
        ∑ p ∈ ((range n).erase i).erase j, ((f p i * f p i + f p j * f p j) + ∑ q ∈ ((range n).erase i).erase j, if p = q then 0 else f p q * f p q) := by
      refine sum_congr rfl fun p hp => ?_
      rw [split2 n i j hi hj hij, if_neg (mem_erase.1 (mem_erase.1 hp).2).1, if_neg (mem_erase.1 hp).1]
    rw [e1, e2, e3, sum_add_distrib (f := fun q => f i q * f i q), if_pos rfl, if_pos rfl, if_neg hij, if_neg (Ne.symm hij)]
    ring
  have hji : m j i = m i j := hs j i hj hi
  rw [row, row m]
  have z1 : newM c s x y i j m i j = 0 := by simp [newM, Ne.symm hij]
  have z2 : newM c s x y i j m j i = 0 := by simp [newM, Ne.symm hij]
  have z3 : ∑ q ∈ ((range n).erase i).erase j, (newM c s x y i j m i q * newM c s x y i j m i q + newM c s x y i j m j q * newM c s x y i j m j q) =
      ∑ q ∈ ((range n).erase i).erase j, (m i q * m i q + m j q * m j q) := by
    refine sum_congr rfl fun q hq => ?_
    have q1 := (mem_erase.1 (mem_erase.1 hq).2).1
    have q2 := (mem_erase.1 hq).1
    simp only [newM, if_neg q1, if_neg q2, if_pos, if_neg (Ne.symm hij)]
    linear_combination (m i q * m i q + m j q * m j q) * hcs
  have z4 : ∑ p ∈ ((range n).erase i).erase j, ((newM c s x y i j m p i * newM c s x y i j m p i + newM c s x y i j m p j * newM c s x y i j m p j) +
        ∑ q ∈ ((range n).erase i).erase j, if p = q then 0 else newM c s x y i j m p q * newM c s x y i j m p q) =
      ∑ p ∈ ((range n).erase i).erase j, ((m p i * m p i + m p j * m p j) + ∑ q ∈ ((range n).erase i).erase j, if p = q then 0 else m p q * m p q) := by
    refine sum_congr rfl fun p hp => ?_
    have p1 := (mem_erase.1 (mem_erase.1 hp).2).1
    have p2 := (mem_erase.1 hp).1
    have p3 := mem_range.1 (mem_erase.1 (mem_erase.1 hp).2).2
    congr 1
    · rw [hs p i p3 hi, hs p j p3 hj]
      simp only [newM, if_neg p1, if_neg p2, if_pos, if_neg (Ne.symm hij)]
      linear_combination (m i p * m i p + m j p * m j p) * hcs
    · refine sum_congr rfl fun q hq => ?_
      have q1 := (mem_erase.1 (mem_erase.1 hq).2).1
      have q2 := (mem_erase.1 hq).1
      simp only [newM, if_neg p1, if_neg p2, if_neg q1, if_neg q2]
  rw [z1, z2, z3, z4, hji]
  ring

theorem offSq_nonneg (n : Nat) (m : Nat → Nat → K) : 0 ≤ offSq n m :=
  sum_nonneg fun p _ => sum_nonneg fun q _ => by
    split
    · exact le_refl _
    · exact mul_self_nonneg _

theorem offSq_congr (n : Nat) (m m' : Nat → Nat → K) (h : ∀ p q, p < n → q < n → m p q = m' p q) : offSq n m = offSq n m' :=
  sum_congr rfl fun p hp => sum_congr rfl fun q hq => by rw [h p q (mem_range.1 hp) (mem_range.1 hq)]

theorem JInv.congr {n : Nat} {M : Nat → Nat → K} {c : K} {d V d' V' : Nat → Nat → K} (h : JInv n M c d V) (hd : ∀ p q, p < n → q < n → d' p q = d p q)
    (hV : ∀ p q, p < n → q < n → V' p q = V p q) : JInv n M c d' V' where
  symm := fun p q hp hq => by rw [hd p q hp hq, hd q p hq hp]; exact h.symm p q hp hq
  orth := fun p q hp hq => by
    rw [← h.orth p q hp hq]
    exact sum_congr rfl fun k hk => by rw [hV k p (mem_range.1 hk) hp, hV k q (mem_range.1 hk) hq]
  sim := fun a p ha hp => by
    have := h.sim a p ha hp
    rw [hV a p ha hp]
    rw [sum_congr rfl fun q hq => show M a q * V' q p = M a q * V q p by rw [hV q p (mem_range.1 hq) hp], this]
    congr 1
    exact sum_congr rfl fun r hr => by rw [hV a r ha (mem_range.1 hr), hd r p (mem_range.1 hr) hp]

/-- **C72.** A rotation of a symmetric matrix about an element that is not zero is defined, sets the element to zero, keeps the
base orthogonal and the matrix symmetric and similar to the original one, and takes twice the square of the element off the
sum of the squares off the diagonal. -/
theorem jacobiRot_spec (sqrt : K → K) (hq : SqrtOk sqrt) (n i j : Nat) (hi : i < n) (hj : j < n) (hij : i ≠ j) (M : Nat → Nat → K) (c : K) (m V : Nat → Nat → K)
    (hd : m i j ≠ 0) (h : JInv n M c m V) :
    ∃ m' V', jacobiRot sqrt n i j m V = .ok (m', V') ∧ m' i j = 0 ∧ m' j i = 0 ∧ JInv n M c m' V' ∧ offSq n m' + 2 * (m i j * m i j) = offSq n m := by
  obtain ⟨a1, a2, a3, a4, a5⟩ := rot_angle sqrt hq m i j hd
  unfold jacobiRot
  dsimp only
  rw [if_neg (by rintro (g | g)
                 · exact a1 g
                 · exact (mul_ne_zero a1 (ne_of_gt a2)) g)]
  have L := rotLoop (rotC sqrt m i j) (rotS sqrt m i j) ((m i i + m j j) / 2 + rotTi sqrt m i j) ((m i i + m j j) / 2 - rotTi sqrt m i j) n i j hi hj hij m V
  generalize forUp 0 n (rotBody (rotC sqrt m i j) (rotS sqrt m i j) i j) _ = r at L ⊢
  refine ⟨r.1, r.2, rfl, ?_, ?_, ?_, ?_⟩
  · rw [(L i j hi hj).1]; simp [newM, Ne.symm hij]
  · rw [(L j i hj hi).1]; simp [newM, Ne.symm hij]
  · refine JInv.congr (d := newM (rotC sqrt m i j) (rotS sqrt m i j) ((m i i + m j j) / 2 + rotTi sqrt m i j) ((m i i + m j j) / 2 - rotTi sqrt m i j) i j m)
      (V := newV (rotC sqrt m i j) (rotS sqrt m i j) i j V) ?_ (fun p q hp hq => (L p q hp hq).1) (fun p q hp hq => (L p q hp hq).2)
    exact ⟨newM_symm _ _ _ _ n i j hij m h.symm, newV_orth _ _ a3 n i j hi hj hij V h.orth,
      newSim _ _ (rotAd m i j) (rotTi sqrt m i j) n i j hi hj hij M m V c a3 h.symm rfl a4 a5 h.sim⟩
  · rw [offSq_congr n _ _ fun p q hp hq => (L p q hp hq).1]
    exact newOff _ _ _ _ n i j hi hj hij m a3 h.symm

/-! ## Sweeps -/

theorem sweep_spec (sqrt : K → K) (hq : SqrtOk sqrt) (tol : K) (ht : 0 ≤ tol) (n : Nat) (M : Nat → Nat → K) (c : K) (s : JS K) (h : JInv n M c s.d s.V) :
    ∃ t, sweep sqrt tol n s = .ok t ∧ JInv n M c t.d t.V ∧
      (t.done = true → t.d = s.d ∧ ∀ p q, q < p → p < n → |s.d p q| ≤ tol) ∧
      (t.done = false → offSq n t.d + 2 * (tol * tol) ≤ offSq n s.d) := by
  let Q : Nat → Nat → JS K → Prop := fun i j t => JInv n M c t.d t.V ∧ offSq n t.d ≤ offSq n s.d ∧
    (t.done = true → t.d = s.d ∧ ∀ p q, q < p → (p < i ∨ (p = i ∧ q < j)) → |s.d p q| ≤ tol) ∧
    (t.done = false → offSq n t.d + 2 * (tol * tol) ≤ offSq n s.d)
  have main : ∃ t, sweep sqrt tol n s = .ok t ∧ (1 ≤ n → Q n 0 t) ∧ (n < 1 → t = ⟨s.d, s.V, true⟩) := by
    unfold sweep
    by_cases hn : 1 ≤ n
    · obtain ⟨t, e1, e2⟩ := forUpM_ok (lo := 1) (hi := n) (fun i s => forUpM 0 i (fun j s => jacobiStep sqrt tol n i j s) s) ⟨s.d, s.V, true⟩
        (fun i t => Q i 0 t) hn ⟨h, le_refl _, fun _ => ⟨rfl, fun p q h1 h2 => by omega⟩, fun g => by simp at g⟩ (by
        intro i t i1 i2 hQ
        obtain ⟨t', f1, f2⟩ := forUpM_ok (lo := 0) (hi := i) (fun j s => jacobiStep sqrt tol n i j s) t (fun j t => Q i j t) (by omega) hQ (by
          rintro j t - j2 ⟨q1, q2, q3, q4⟩
          unfold jacobiStep
          by_cases g : |t.d i j| ≤ tol
          · rw [if_pos g]
            refine ⟨t, rfl, q1, q2, fun hd => ⟨(q3 hd).1, fun p q h1 h2 => ?_⟩, q4⟩
            by_cases g2 : p = i ∧ q = j
            · rw [g2.1, g2.2, ← (q3 hd).1]; exact g
            · exact (q3 hd).2 p q h1 (by omega)
          · rw [if_neg g]
            have g' : tol < |t.d i j| := not_le.1 g
            have hne : t.d i j ≠ 0 := by
              intro e
              rw [e, abs_zero] at g'
              exact absurd ht (not_le.2 g')
            obtain ⟨m', V', r1, -, -, r4, r5⟩ := jacobiRot_spec sqrt hq n i j i2 (by omega) (by omega) M c t.d t.V hne q1
            rw [r1]
            have hsq : tol * tol ≤ t.d i j * t.d i j := by
              rw [← abs_mul_abs_self (t.d i j)]
              exact mul_self_le_mul_self ht (le_of_lt g')
            have hpos := mul_self_nonneg tol
            exact ⟨_, rfl, r4, by show offSq n m' ≤ _; linarith, fun e => by simp at e, fun _ => by show offSq n m' + _ ≤ _; linarith⟩)
        refine ⟨t', f1, f2.1, f2.2.1, fun hd => ⟨(f2.2.2.1 hd).1, fun p q h1 h2 => (f2.2.2.1 hd).2 p q h1 (by omega)⟩, f2.2.2.2⟩)
      exact ⟨t, e1, fun _ => e2, fun g => by omega⟩
    · refine ⟨⟨s.d, s.V, true⟩, ?_, fun g => absurd g hn, fun _ => rfl⟩
      exact forUpM_nil (by omega) _ _
  obtain ⟨t, e1, e2, e3⟩ := main
  refine ⟨t, e1, ?_⟩
  by_cases hn : 1 ≤ n
  · obtain ⟨a1, a2, a3, a4⟩ := e2 hn
    exact ⟨a1, fun hd => ⟨(a3 hd).1, fun p q h1 h2 => (a3 hd).2 p q h1 (by omega)⟩, a4⟩
  · rw [e3 (by omega)]
    exact ⟨h, fun _ => ⟨rfl, fun p q h1 h2 => by omega⟩, fun g => by simp at g⟩

theorem jacobiLoop_spec (sqrt : K → K) (hq : SqrtOk sqrt) (tol : K) (ht : 0 ≤ tol) (limit n : Nat) (M : Nat → Nat → K) (c : K) (fuel cnt : Nat) (hf : 0 < fuel)
    (hc : cnt + fuel = limit + 2) (s : JS K) (h : JInv n M c s.d s.V) :
    ∃ t, jacobiLoop sqrt tol limit n fuel cnt s = .ok t ∧ JInv n M c t.d t.V ∧
      (t.done = true → ∀ p q, p < n → q < n → p ≠ q → |t.d p q| ≤ tol) ∧
      (t.done = false → offSq n t.d + 2 * (tol * tol) * fuel ≤ offSq n s.d) := by
  induction fuel generalizing cnt s with
  | zero => omega
  | succ fuel ih =>
    obtain ⟨t, e1, e2, e3, e4⟩ := sweep_spec sqrt hq tol ht n M c s h
    unfold jacobiLoop
    rw [e1]
    dsimp only [Res.bind]
    have tiny : t.done = true → ∀ p q, p < n → q < n → p ≠ q → |t.d p q| ≤ tol := by
      intro hd p q hp hq hpq
      obtain ⟨f1, f2⟩ := e3 hd
      rw [f1]
      rcases lt_or_gt_of_ne hpq with g | g
      · rw [← f1, e2.symm p q hp hq, f1]; exact f2 q p g hq
      · exact f2 p q g hp
    by_cases g1 : cnt > limit
    · rw [if_pos g1]
      have : fuel = 0 := by omega
      subst this
      exact ⟨t, rfl, e2, tiny, fun hd => by have := e4 hd; simpa using this⟩
    rw [if_neg g1]
    by_cases g2 : t.done = true
    · rw [if_pos g2]
      exact ⟨t, rfl, e2, tiny, fun hd => by rw [g2] at hd; simp at hd⟩
    · rw [if_neg g2]
      obtain ⟨t', f1, f2, f3, f4⟩ := ih (cnt + 1) (by omega) (by omega) t e2
      refine ⟨t', f1, f2, f3, fun hd => ?_⟩
      have x1 := f4 hd
      have x2 := e4 (by simpa using g2)
      push_cast
      linarith

/-- The start of the iteration. -/
theorem jacobi_start (n : Nat) (M : Nat → Nat → K) (hM : Symm n M) (c : K) :
    JInv n M c (fun i j => if i = j then M i j - c else M i j) (fun i j => if i = j then 1 else 0) where
  symm := by
    intro p q hp hq
    by_cases e : p = q
    · simp [e]
    · simp only [if_neg e, if_neg (Ne.symm e)]; exact hM p q hp hq
  orth := by
    intro p q hp hq
    simp only [ite_mul, one_mul, zero_mul, sum_ite_eq', mem_range, if_pos hp]
  sim := by
    intro a p ha hp
    have x1 : ∀ D : Nat → K, ∑ r ∈ range n, (if a = r then (1:K) else 0) * D r = D a := by
      intro D
      simp only [ite_mul, one_mul, zero_mul, sum_ite_eq, mem_range, if_pos ha]
    have x2 : ∀ D : Nat → K, ∑ r ∈ range n, D r * (if r = p then (1:K) else 0) = D p := by
      intro D
      simp only [mul_ite, mul_one, mul_zero, sum_ite_eq', mem_range, if_pos hp]
    rw [x1 fun r => if r = p then M r p - c else M r p, x2 fun q => M a q]
    by_cases e : a = p
    · simp [e]
    · simp [e]

/-- **C72.** For a symmetric matrix the method never divides by zero, ends, and its base is orthonormal.  If the sweeps were
completed, each pair of an eigenvalue and a column of the base satisfies the eigenequation up to the tolerance.  The sweeps are
completed whenever the limit of their number allows for the sum of the squares off the diagonal. -/
theorem zMatSymEigJacobi_correct (sqrt : K → K) (hq : SqrtOk sqrt) (tol : K) (ht : 0 ≤ tol) (limit : Nat) (qe : K → K → K → K × K) (n : Nat) (hn : 2 ≤ n)
    (M : Nat → Nat → K) (hM : Symm n M) :
    ∃ val V done, zMatSymEigJacobi sqrt tol limit qe n M = .ok (val, V, done) ∧ OrthCols n V ∧
      (done = true → ∀ p, p < n → ∑ a ∈ range n, (∑ q ∈ range n, M a q * V q p - val p * V a p) ^ 2 ≤ (n - 1 : K) * tol ^ 2) ∧
      (offSq n M < 2 * tol ^ 2 * (limit + 2) → done = true) := by
  unfold zMatSymEigJacobi
  rw [if_neg (by omega)]
  dsimp only
  generalize jacobiShift qe M = c
  obtain ⟨t, e1, e2, e3, e4⟩ := jacobiLoop_spec sqrt hq tol ht limit n M c (limit + 2) 0 (by omega) (by omega)
    ⟨fun i j => if i = j then M i j - c else M i j, fun i j => if i = j then 1 else 0, true⟩ (jacobi_start n M hM c)
  rw [e1]
  refine ⟨_, _, _, rfl, e2.orth, fun hd p hp => ?_, fun hlt => ?_⟩
  · have res : ∀ a, a < n → ∑ q ∈ range n, M a q * t.V q p - (t.d p p + c) * t.V a p = ∑ r ∈ range n, t.V a r * (if r = p then 0 else t.d r p) := by
      intro a ha
      rw [e2.sim a p ha hp]
      have : ∑ r ∈ range n, t.V a r * t.d r p = t.V a p * t.d p p + ∑ r ∈ range n, t.V a r * (if r = p then 0 else t.d r p) := by
        rw [← add_sum_erase (range n) _ (mem_range.2 hp), ← add_sum_erase (range n) (fun r => t.V a r * (if r = p then 0 else t.d r p)) (mem_range.2 hp)]
        simp only [if_pos, mul_zero, zero_add]
        congr 1
        exact sum_congr rfl fun r hr => by rw [if_neg (mem_erase.1 hr).1]
      rw [this]; ring
    have tot : ∑ a ∈ range n, (∑ q ∈ range n, M a q * t.V q p - (t.d p p + c) * t.V a p) ^ 2 = ∑ r ∈ range n, (if r = p then 0 else t.d r p) ^ 2 := by
      have s1 : ∀ a ∈ range n, (∑ q ∈ range n, M a q * t.V q p - (t.d p p + c) * t.V a p) ^ 2 =
          ∑ r ∈ range n, ∑ r' ∈ range n, (if r = p then 0 else t.d r p) * (if r' = p then 0 else t.d r' p) * (t.V a r * t.V a r') := by
        intro a ha
        rw [res a (mem_range.1 ha), pow_two, sum_mul_sum]
        exact sum_congr rfl fun r _ => sum_congr rfl fun r' _ => by ring
      rw [sum_congr rfl s1, sum_comm]
      refine sum_congr rfl fun r hr => ?_
      rw [sum_comm]
      have s2 : ∀ r' ∈ range n, ∑ a ∈ range n, (if r = p then 0 else t.d r p) * (if r' = p then 0 else t.d r' p) * (t.V a r * t.V a r') =
          if r = r' then (if r = p then 0 else t.d r p) * (if r' = p then 0 else t.d r' p) else 0 := by
        intro r' hr'
        rw [← mul_sum, e2.orth r r' (mem_range.1 hr) (mem_range.1 hr')]
        split <;> simp
      rw [sum_congr rfl s2, sum_ite_eq, if_pos hr, pow_two]
    rw [tot, ← add_sum_erase (range n) _ (mem_range.2 hp), if_pos rfl]
    have : ∑ r ∈ (range n).erase p, (if r = p then (0:K) else t.d r p) ^ 2 ≤ ∑ r ∈ (range n).erase p, tol ^ 2 := by
      refine sum_le_sum fun r hr => ?_
      obtain ⟨r1, r2⟩ := mem_erase.1 hr
      rw [if_neg r1, ← sq_abs]
      exact pow_le_pow_left₀ (abs_nonneg _) (e3 hd r p (mem_range.1 r2) hp r1) 2
    rw [sum_const, card_erase_of_mem (mem_range.2 hp), card_range, nsmul_eq_mul, Nat.cast_sub (by omega)] at this
    simpa using this
  · by_contra hd
    have x1 := e4 (by simpa using hd)
    have x2 := offSq_nonneg n t.d
    have x3 : offSq n (fun i j => if i = j then M i j - c else M i j) = offSq n M :=
      sum_congr rfl fun p _ => sum_congr rfl fun q _ => by by_cases e : p = q <;> simp [e]
    dsimp only at x1
    rw [x3] at x1
    push_cast at x1
    nlinarith

/-- **C72.** Without a tolerance the completed sweeps deliver eigenpairs. -/
theorem zMatSymEigJacobi_exact (sqrt : K → K) (hq : SqrtOk sqrt) (limit : Nat) (qe : K → K → K → K × K) (n : Nat) (hn : 2 ≤ n)
    (M : Nat → Nat → K) (hM : Symm n M) (val : Nat → K) (V : Nat → Nat → K) (h : zMatSymEigJacobi sqrt 0 limit qe n M = .ok (val, V, true)) :
    OrthCols n V ∧ ∀ a p, a < n → p < n → ∑ q ∈ range n, M a q * V q p = val p * V a p := by
  obtain ⟨val', V', done, e, h1, h2, -⟩ := zMatSymEigJacobi_correct sqrt hq 0 (le_refl _) limit qe n hn M hM
  rw [h] at e
  obtain ⟨rfl, rfl, rfl⟩ := Prod.mk.inj (Res.ok.inj e) |>.imp id fun g => Prod.mk.inj g
  refine ⟨h1, fun a p ha hp => ?_⟩
  have := h2 rfl p hp
  rw [zero_pow (by norm_num), mul_zero] at this
  have z := (sum_eq_zero_iff_of_nonneg fun a _ => sq_nonneg _).1 (le_antisymm this (sum_nonneg fun a _ => sq_nonneg _)) a (mem_range.2 ha)
  exact sub_eq_zero.1 (pow_eq_zero_iff (by norm_num) |>.1 z)

/-- **C72 is violated** for a matrix with one row: the element in the second row and column is read. -/
theorem zMatSymEigJacobi_violated_size1 (sqrt : K → K) (tol : K) (limit : Nat) (qe : K → K → K → K × K) (M : Nat → Nat → K) :
    zMatSymEigJacobi sqrt tol limit qe 1 M = .ub := rfl

/-- The matrix ((0, 24), (24, 14)) has the eigenvalues -18 and 32; the roots that occur are rational. -/
example : (match zMatSymEigJacobi (K := ℚ) (fun x => if x = 625 then 25 else if x = 16 / 25 then 4 / 5 else 0) (1 / 10 ^ 12) 10000 (fun _ _ _ => (0, 0)) 2
      (fun i j => if i = 0 ∧ j = 0 then 0 else if i = 1 ∧ j = 1 then 14 else 24) with
    | .ok (val, V, done) => decide (val 0 = -18 ∧ val 1 = 32 ∧ V 0 0 = 4 / 5 ∧ V 1 0 = -(3 / 5) ∧ V 0 1 = 3 / 5 ∧ V 1 1 = 4 / 5 ∧ done = true)
    | _ => false) = true := by decide +kernel

/-- The hypotheses are met by the matrix ((2, 1), (1, 3)). -/
example : Symm (K := ℝ) 2 (fun i j => if i = 0 ∧ j = 0 then 2 else if i = 1 ∧ j = 1 then 3 else 1) ∧ SqrtOk Real.sqrt ∧
    offSq (K := ℝ) 2 (fun i j => if i = 0 ∧ j = 0 then 2 else if i = 1 ∧ j = 1 then 3 else 1) < 2 * (1 / 10) ^ 2 * ((10000 : ℕ) + 2) := by
  refine ⟨?_, real_sqrt_ok, ?_⟩
  · intro p q hp hq
    interval_cases p <;> interval_cases q <;> simp
  · norm_num [offSq, sum_range_succ]

end Zm.Eig
