import Verif.Model.QPASM
import Verif.Props.CholMore
import Verif.Props.LPMore
import Verif.Props.LEGen
import Verif.Props.LCP
import Verif.Props.Lyap

set_option linter.unusedSectionVars false
set_option linter.unusedVariables false

/-! # Active set method for quadratic programming: C143–C146 -/

namespace Zm.QPASM
open Zm LE LP Misc Finset
variable {K : Type*} [Field K] [LinearOrder K] [IsStrictOrderedRing K]

/-! ## Specification -/

/-- The point satisfies the constraints `A x ≥ b`. -/
def Feasible (P : Prob K) (x : Nat → K) : Prop := ∀ i < P.m, P.b i ≤ Ax P.n P.a x i

/-- The objective `x'Qx/2 + c'x`. -/
def obj (P : Prob K) (x : Nat → K) : K := LCP.Obj P.n P.q P.c x

/-- Comparisons without tolerance, and an insertion that adds one element to a list. -/
structure Exact (P : Prob K) : Prop where
  tst : P.tst = Tst.exact
  tol : P.tol = 0
  ins : ∀ l v, (P.ins l v).Perm (v :: l)

/-! ## The objective -/

theorem obj_expand (P : Prob K) (hs : SymmOn P.n P.q) (x y : Nat → K) :
    obj P y = obj P x + 1/2 * ∑ r ∈ range P.n, ∑ s ∈ range P.n, (y r - x r) * (y s - x s) * P.q r s
      + ∑ i ∈ range P.n, (Ax P.n P.q x i + P.c i) * (y i - x i) := by
  have hcross : ∑ i ∈ range P.n, ∑ j ∈ range P.n, P.q i j * y i * x j = ∑ i ∈ range P.n, ∑ j ∈ range P.n, P.q i j * x i * y j := by
    rw [sum_comm]
    refine sum_congr rfl fun i hi => sum_congr rfl fun j hj => ?_
    rw [hs j i (mem_range.1 hj) (mem_range.1 hi)]; ring
  have e1 : ∑ r ∈ range P.n, ∑ s ∈ range P.n, (y r - x r) * (y s - x s) * P.q r s =
      ∑ i ∈ range P.n, ∑ j ∈ range P.n, P.q i j * y i * y j - ∑ i ∈ range P.n, ∑ j ∈ range P.n, P.q i j * y i * x j -
      ∑ i ∈ range P.n, ∑ j ∈ range P.n, P.q i j * x i * y j + ∑ i ∈ range P.n, ∑ j ∈ range P.n, P.q i j * x i * x j := by
    simp only [← sum_sub_distrib, ← sum_add_distrib]
    exact sum_congr rfl fun i _ => sum_congr rfl fun j _ => by ring
  have e2 : ∑ i ∈ range P.n, (Ax P.n P.q x i + P.c i) * (y i - x i) =
      ∑ i ∈ range P.n, ∑ j ∈ range P.n, P.q i j * y i * x j - ∑ i ∈ range P.n, ∑ j ∈ range P.n, P.q i j * x i * x j +
      (∑ i ∈ range P.n, P.c i * y i - ∑ i ∈ range P.n, P.c i * x i) := by
    simp only [← sum_sub_distrib, ← sum_add_distrib, Ax]
    refine sum_congr rfl fun i _ => ?_
    rw [add_mul, sum_mul]
    congr 1
    · exact sum_congr rfl fun j _ => by ring
    · ring
  rw [e1, e2, hcross]
  unfold obj LCP.Obj
  ring

/-- The conditions of Karush, Kuhn and Tucker with multipliers `μ` on a set of constraints that hold with equality are sufficient. -/
theorem kkt (P : Prob K) (hs : SymmOn P.n P.q) (hp : PosDef P.n P.q) (S : Finset Nat) (hS : ∀ r ∈ S, r < P.m) (x μ : Nat → K)
    (hg : ∀ i < P.n, Ax P.n P.q x i + P.c i = ∑ r ∈ S, μ r * P.a r i) (ha : ∀ r ∈ S, Ax P.n P.a x r = P.b r) (hμ : ∀ r ∈ S, 0 ≤ μ r)
    (y : Nat → K) (hy : Feasible P y) : obj P x ≤ obj P y ∧ (obj P y = obj P x → ∀ i < P.n, y i = x i) := by
  have h2 : 0 ≤ ∑ i ∈ range P.n, (Ax P.n P.q x i + P.c i) * (y i - x i) := by
    have e : ∑ i ∈ range P.n, (Ax P.n P.q x i + P.c i) * (y i - x i) = ∑ r ∈ S, μ r * (Ax P.n P.a y r - Ax P.n P.a x r) := by
      have : ∀ r, Ax P.n P.a y r - Ax P.n P.a x r = ∑ i ∈ range P.n, P.a r i * (y i - x i) := fun r => by
        unfold Ax; rw [← sum_sub_distrib]; exact sum_congr rfl fun i _ => by ring
      simp only [this, mul_sum]
      rw [sum_comm]
      refine sum_congr rfl fun i hi => ?_
      rw [hg i (mem_range.1 hi), sum_mul]
      exact sum_congr rfl fun r _ => by ring
    rw [e]
    exact sum_nonneg fun r hr => mul_nonneg (hμ r hr) (by rw [ha r hr]; exact sub_nonneg.2 (hy r (hS r hr)))
  have e := obj_expand P hs x y
  by_cases g : ∃ i, i < P.n ∧ y i - x i ≠ 0
  · have h1 := hp (fun i => y i - x i) g
    beta_reduce at h1
    exact ⟨by linarith, fun h => by linarith⟩
  · push Not at g
    have h1 : ∑ r ∈ range P.n, ∑ s ∈ range P.n, (y r - x r) * (y s - x s) * P.q r s = 0 :=
      sum_eq_zero fun r hr => sum_eq_zero fun s _ => by rw [g r (mem_range.1 hr), zero_mul, zero_mul]
    exact ⟨by rw [e, h1]; linarith, fun _ i hi => sub_eq_zero.1 (g i hi)⟩

/-! ## The inverse matrix -/

theorem not_singular {n : Nat} {q : Nat → Nat → K} (hp : PosDef n q) : ¬ Singular n q := by
  rintro ⟨z, hz, h0⟩
  have := hp z hz
  rw [sum_eq_zero fun r hr => ?_] at this
  · exact lt_irrefl _ this
  · have e : ∑ s ∈ range n, z r * z s * q r s = z r * ∑ s ∈ range n, q r s * z s := by
      rw [mul_sum]; exact sum_congr rfl fun s _ => by ring
    rw [e, h0 r (mem_range.1 hr), mul_zero]

/-- What `_zQPASMInit` prepares. -/
structure PreOk (P : Prob K) (W : Pre K) : Prop where
  inv : ∀ i < P.n, ∀ j < P.n, ∑ k ∈ range P.n, P.q i k * W.qinv k j = if i = j then 1 else 0
  at_ : ∀ i < P.m, ∀ j < P.m, W.aqinvat i j = ∑ k ∈ range P.n, ∑ l ∈ range P.n, P.a i k * W.qinv k l * P.a j l
  c : ∀ i < P.n, W.qinvc i = Ax P.n W.qinv P.c i
  cb : ∀ i < P.m, W.aqinvcb i = Ax P.n P.a W.qinvc i + P.b i

theorem init_spec (P : Prob K) (ht : P.tol = 0) (hp : PosDef P.n P.q) : ∃ W, init P = .ok W ∧ PreOk P W := by
  obtain ⟨qi, e, hq⟩ := zMatInv_correct_partial P.n P.q (not_singular hp)
  unfold init
  rw [ht, e]
  refine ⟨_, rfl, ?_, ?_, ?_, ?_⟩ <;> dsimp only
  · intro i hi j hj
    rw [← hq i hi ⟨j, hj⟩]
    exact sum_congr rfl fun k _ => by simp [unfin, hj]
  · intro i hi j hj
    exact zMulMatMatMatTNC_spec P.m P.n P.a _ i j hi hj
  · intro i hi
    rw [mulVec_spec, if_pos hi]
  · intro i hi
    rw [addTo_spec, if_pos hi, mulVec_spec, if_pos hi]

/-- `Q (Q⁻¹ s) = s`. -/
theorem PreOk.apply {P : Prob K} {W : Pre K} (h : PreOk P W) (s : Nat → K) : ∀ i < P.n, Ax P.n P.q (Ax P.n W.qinv s) i = s i := by
  intro i hi
  have : Ax P.n P.q (Ax P.n W.qinv s) i = ∑ j ∈ range P.n, (∑ k ∈ range P.n, P.q i k * W.qinv k j) * s j := by
    simp only [Ax, mul_sum, sum_mul]
    rw [sum_comm]
    exact sum_congr rfl fun j _ => sum_congr rfl fun k _ => by ring
  rw [this, sum_congr rfl fun j hj => by rw [h.inv i hi j (mem_range.1 hj)]]
  simp [hi]

/-! ## Independent constraints -/

/-- The rows of the matrix in the set are linearly independent. -/
def Indep (P : Prob K) (S : Finset Nat) : Prop := ∀ y : Nat → K, (∀ j < P.n, ∑ i ∈ S, y i * P.a i j = 0) → ∀ i ∈ S, y i = 0

theorem Indep.mono {P : Prob K} {S T : Finset Nat} (h : Indep P T) (hst : S ⊆ T) : Indep P S := by
  intro y hy i hi
  have := h (fun i => if i ∈ S then y i else 0) (fun j hj => ?_) i (hst hi)
  · simpa [hi] using this
  · refine Eq.trans ?_ (hy j hj)
    refine ((sum_subset hst fun i _ hn => ?_).symm).trans (sum_congr rfl fun i hi => ?_)
    · simp [hn]
    · simp [hi]

theorem Indep.insert {P : Prob K} {S : Finset Nat} (h : Indep P S) {r : Nat} (hr : r ∉ S) (d : Nat → K) (hd : ∀ i ∈ S, Ax P.n P.a d i = 0) (hn : Ax P.n P.a d r ≠ 0) :
    Indep P (insert r S) := by
  intro y hy
  have h0 : y r = 0 := by
    have : ∑ j ∈ range P.n, (∑ i ∈ Insert.insert r S, y i * P.a i j) * d j = 0 := sum_eq_zero fun j hj => by rw [hy j (mem_range.1 hj), zero_mul]
    have e : ∑ j ∈ range P.n, (∑ i ∈ Insert.insert r S, y i * P.a i j) * d j = ∑ i ∈ Insert.insert r S, y i * Ax P.n P.a d i := by
      simp only [Ax, mul_sum, sum_mul]
      rw [sum_comm]
      exact sum_congr rfl fun i _ => sum_congr rfl fun j _ => by ring
    rw [e, sum_insert hr, sum_eq_zero fun i hi => by rw [hd i hi, mul_zero], add_zero] at this
    exact (mul_eq_zero.1 this).resolve_right hn
  intro i hi
  rcases Finset.mem_insert.1 hi with rfl | hi
  · exact h0
  · refine h y (fun j hj => ?_) i hi
    have := hy j hj
    rwa [sum_insert hr, h0, zero_mul, zero_add] at this

theorem sum_getD (l : List Nat) (hl : l.Nodup) (f : Nat → K) : ∑ p ∈ range l.length, f (l.getD p 0) = ∑ i ∈ l.toFinset, f i := by
  refine sum_bij (fun p _ => l.getD p 0) ?_ ?_ ?_ ?_
  · intro p hp
    rw [List.mem_toFinset]
    exact getD_mem (mem_range.1 hp)
  · intro p hp q hq e
    have hp := mem_range.1 hp
    have hq := mem_range.1 hq
    rw [List.getD_eq_getElem _ _ hp, List.getD_eq_getElem _ _ hq] at e
    exact (List.Nodup.getElem_inj_iff hl).1 e
  · intro i hi
    rw [List.mem_toFinset] at hi
    obtain ⟨p, hp, e⟩ := List.getElem_of_mem hi
    exact ⟨p, mem_range.2 hp, by rw [List.getD_eq_getElem _ _ hp, e]⟩
  · intros; rfl

theorem idxOf_getD (l : List Nat) (hl : l.Nodup) {p : Nat} (hp : p < l.length) : l.idxOf (l.getD p 0) = p := by
  rw [List.getD_eq_getElem _ _ hp]
  exact hl.idxOf_getElem p hp

/-- Numbers given for the places of a list as numbers given for its elements. -/
theorem sum_places (l : List Nat) (hl : l.Nodup) (z : Nat → K) (f : Nat → K) :
    ∑ p ∈ range l.length, z p * f (l.getD p 0) = ∑ i ∈ l.toFinset, z (l.idxOf i) * f i := by
  rw [← sum_getD l hl fun i => z (l.idxOf i) * f i]
  exact sum_congr rfl fun p hp => by rw [idxOf_getD l hl (mem_range.1 hp)]

/-! ## Solving the equation -/

theorem sLoop_spec (n k : Nat) (g : Nat → Nat → K) (i : Nat) (hi : i < n) :
    forUp 0 n (fun i s => forUp 0 k (fun j s => set1 s i (s i + g j i)) (set1 s i 0)) (fun _ => (0:K)) i = ∑ j ∈ range k, g j i := by
  have hin : ∀ (i : Nat) (t : Nat → K), forUp 0 k (fun j s => set1 s i (s i + g j i)) (set1 t i 0) = set1 t i (∑ j ∈ range k, g j i) := by
    intro i t
    refine forUp_inv _ _ (fun r s => s = set1 t i (∑ j ∈ range r, g j i)) (Nat.zero_le _) (by simp) ?_
    rintro r s - - rfl
    rw [set1_same, sum_range_succ]
    funext v
    by_cases h : v = i
    · rw [h, set1_same, set1_same]
    · rw [set1_ne _ _ h, set1_ne _ _ h, set1_ne _ _ h]
  simp only [hin]
  rw [forUp_set1 (fun i _ => ∑ j ∈ range k, g j i) _ (fun i => ∑ j ∈ range k, g j i) (fun _ _ _ _ _ _ => rfl)]
  simp [hi]

/-- The numbers `x` and multipliers `μ` that `_zQPASMSolveEq` finds. -/
structure Solved (P : Prob K) (S : Finset Nat) (x μ : Nat → K) : Prop where
  grad : ∀ i < P.n, Ax P.n P.q x i + P.c i = ∑ r ∈ S, μ r * P.a r i
  eq : ∀ r ∈ S, Ax P.n P.a x r = P.b r

theorem solveEq_spec {P : Prob K} {W : Pre K} (ht : P.tol = 0) (hp : PosDef P.n P.q) (hW : PreOk P W) (hnm : P.n ≤ P.m) (st : St K)
    (hnd : st.ia.Nodup) (hlt : ∀ i ∈ st.ia, i < P.m) (hi : Indep P st.ia.toFinset) :
    ∃ st', solveEq P W st = .ok st' ∧ st'.ia = st.ia ∧ st'.nin = st.nin ∧ st'.xtmp = st.xtmp ∧
      Solved P st.ia.toFinset st'.x (fun r => st'.lam (st.ia.idxOf r)) := by
  -- the vector A' z for numbers given for the places of the active set
  have hM : ∀ z : Nat → K, ∀ p < st.ia.length, ∑ r ∈ range st.ia.length, W.aqinvat (st.ia.getD p 0) (st.ia.getD r 0) * z r =
      Ax P.n P.a (Ax P.n W.qinv fun l => ∑ r ∈ range st.ia.length, P.a (st.ia.getD r 0) l * z r) (st.ia.getD p 0) := by
    intro z p hp'
    rw [sum_congr rfl fun r hr => by rw [hW.at_ _ (hlt _ (getD_mem hp')) _ (hlt _ (getD_mem (mem_range.1 hr)))]]
    simp only [Ax, sum_mul, mul_sum]
    rw [sum_comm]
    refine sum_congr rfl fun k _ => ?_
    rw [sum_comm]
    exact sum_congr rfl fun l _ => sum_congr rfl fun r _ => by ring
  have hns : ¬ Singular st.ia.length (fun p r => W.aqinvat (st.ia.getD p 0) (st.ia.getD r 0)) := by
    rintro ⟨z, ⟨p, hp', hz⟩, h0⟩
    obtain ⟨s, hs⟩ : ∃ s : Nat → K, s = fun l => ∑ r ∈ range st.ia.length, P.a (st.ia.getD r 0) l * z r := ⟨_, rfl⟩
    have h1 : ∀ p < st.ia.length, Ax P.n P.a (Ax P.n W.qinv s) (st.ia.getD p 0) = 0 := by
      intro p hp'
      rw [hs, ← hM z p hp']
      exact h0 p hp'
    obtain ⟨y, hy⟩ : ∃ y, y = Ax P.n W.qinv s := ⟨_, rfl⟩
    rw [← hy] at h1
    have h2 : ∑ i ∈ range P.n, s i * y i = 0 := by
      have : ∑ i ∈ range P.n, s i * y i = ∑ r ∈ range st.ia.length, z r * Ax P.n P.a y (st.ia.getD r 0) := by
        simp only [hs, Ax, mul_sum, sum_mul]
        rw [sum_comm]
        exact sum_congr rfl fun r _ => sum_congr rfl fun i _ => by ring
      rw [this]
      exact sum_eq_zero fun r hr => by rw [h1 r (mem_range.1 hr), mul_zero]
    have h3 : ∀ i < P.n, Ax P.n P.q y i = s i := by rw [hy]; exact hW.apply s
    have h4 : ∀ i < P.n, y i = 0 := by
      by_contra hne
      push Not at hne
      have := hp y hne
      have e : ∑ r ∈ range P.n, ∑ t ∈ range P.n, y r * y t * P.q r t = ∑ i ∈ range P.n, s i * y i := by
        refine sum_congr rfl fun r hr => ?_
        rw [← h3 r (mem_range.1 hr), Ax, sum_mul]
        exact sum_congr rfl fun t _ => by ring
      rw [e, h2] at this
      exact lt_irrefl _ this
    have h5 : ∀ i < P.n, s i = 0 := by
      intro i hi
      rw [← h3 i hi, Ax]
      exact sum_eq_zero fun j hj => by rw [h4 j (mem_range.1 hj), mul_zero]
    have h6 := hi (fun i => z (st.ia.idxOf i)) (fun j hj => by
      rw [← sum_places st.ia hnd z fun i => P.a i j, ← h5 j hj, hs]
      exact sum_congr rfl fun r _ => mul_comm _ _) (st.ia.getD p 0) (List.mem_toFinset.2 (getD_mem hp'))
    beta_reduce at h6
    rw [idxOf_getD st.ia hnd hp'] at h6
    exact hz h6
  obtain ⟨lam, e, hl⟩ := (zLESolveGauss_iff st.ia.length (fun p r => W.aqinvat (st.ia.getD p 0) (st.ia.getD r 0)) (fun p => W.aqinvcb (st.ia.getD p 0)) st.lam).1 hns
  unfold zLESolveGauss at e
  have e1 : solveLam P W st.ia st.lam = .ok lam := by
    unfold solveLam
    rw [ht, e]
  unfold solveEq
  rw [e1]
  have e2 : ∀ y, solveX P W st.ia lam = .ok y → (Res.ok lam).bind (fun lam => (solveX P W st.ia lam).bind fun x => .ok { st with x := x, lam := lam }) = .ok { st with x := y, lam := lam } := by
    intro y hy
    show (solveX P W st.ia lam).bind _ = _
    rw [hy]; rfl
  have e3 : solveX P W st.ia lam = .ok fun i => mulVec P.n P.n W.qinv (forUp 0 P.n (fun i s => forUp 0 st.ia.length (fun j s => set1 s i (s i + P.a (st.ia.getD j 0) i * lam j)) (set1 s i 0)) (fun _ => 0)) (fun _ => 0) i - W.qinvc i := by
    unfold solveX
    rw [if_neg (by omega)]
  obtain ⟨x, hx⟩ : ∃ x : Nat → K, x = fun i => mulVec P.n P.n W.qinv (forUp 0 P.n (fun i s => forUp 0 st.ia.length (fun j s => set1 s i (s i + P.a (st.ia.getD j 0) i * lam j)) (set1 s i 0)) (fun _ => 0)) (fun _ => 0) i - W.qinvc i := ⟨_, rfl⟩
  rw [← hx] at e3
  refine ⟨_, e2 x e3, rfl, rfl, rfl, ?_⟩
  dsimp only
  obtain ⟨s, hs⟩ : ∃ s : Nat → K, s = fun l => ∑ r ∈ range st.ia.length, P.a (st.ia.getD r 0) l * lam r := ⟨_, rfl⟩
  have hxv : ∀ i < P.n, x i = Ax P.n W.qinv s i - Ax P.n W.qinv P.c i := by
    intro i hi
    rw [hx]
    beta_reduce
    rw [mulVec_spec, if_pos hi, hW.c i hi]
    congr 1
    refine Ax_congr _ _ _ _ (fun j hj => ?_) i
    rw [hs]
    exact sLoop_spec P.n st.ia.length (fun j i => P.a (st.ia.getD j 0) i * lam j) j hj
  constructor
  · intro i hi
    rw [Ax_congr _ _ _ _ hxv, Ax_sub, hW.apply s i hi, hW.apply P.c i hi, sub_add_cancel, hs, ← sum_places st.ia hnd lam fun r => P.a r i]
    exact sum_congr rfl fun r _ => mul_comm _ _
  · intro r hr
    rw [List.mem_toFinset] at hr
    obtain ⟨p, hp', er⟩ := List.getElem_of_mem hr
    have er : st.ia.getD p 0 = r := by rw [List.getD_eq_getElem _ _ hp', er]
    have h1 := hl p hp'
    rw [hM lam p hp', er, ← hs, hW.cb r (hlt r hr)] at h1
    rw [Ax_congr _ _ _ _ hxv, Ax_sub, h1]
    have : Ax P.n P.a (fun j => Ax P.n W.qinv P.c j) r = Ax P.n P.a W.qinvc r := Ax_congr _ _ _ _ (fun j hj => (hW.c j hj).symm) r
    rw [this]
    ring

/-! ## Adding a constraint -/

/-- The constraint `i` is violated by `x` and takes part in the choice. -/
def Viol (P : Prob K) (x xtmp : Nat → K) (i : Nat) : Prop := Ax P.n P.a x i < P.b i ∧ Ax P.n P.a x i ≠ Ax P.n P.a xtmp i

/-- The part of the way from `xtmp` to `x` at which the constraint becomes active. -/
def ratio (P : Prob K) (x xtmp : Nat → K) (i : Nat) : K := (P.b i - Ax P.n P.a xtmp i) / (Ax P.n P.a x i - Ax P.n P.a xtmp i)

theorem addScan_spec {P : Prob K} (ht : P.tol = 0) (x xtmp : Nat → K) (l : List Nat) : ∀ o : Option (K × Nat),
    (addScan P x xtmp l o = none → o = none ∧ ∀ i ∈ l, ¬ Viol P x xtmp i) ∧
    (∀ d i, addScan P x xtmp l o = some (d, i) →
      (o = some (d, i) ∨ i ∈ l ∧ Viol P x xtmp i ∧ d = ratio P x xtmp i) ∧ (∀ d' i', o = some (d', i') → d ≤ d') ∧ ∀ k ∈ l, Viol P x xtmp k → d ≤ ratio P x xtmp k) := by
  induction l with
  | nil =>
    intro o
    unfold addScan
    refine ⟨fun h => ⟨h, by simp⟩, fun d i h => ⟨Or.inl h, fun d' i' h' => ?_, by simp⟩⟩
    rw [h] at h'
    cases h'
    exact le_refl _
  | cons r l ih =>
    intro o
    unfold addScan
    dsimp only
    have hskip : ¬ Viol P x xtmp r → (addScan P x xtmp l o = none → o = none ∧ ∀ i ∈ r :: l, ¬ Viol P x xtmp i) ∧
      (∀ d i, addScan P x xtmp l o = some (d, i) →
        (o = some (d, i) ∨ i ∈ r :: l ∧ Viol P x xtmp i ∧ d = ratio P x xtmp i) ∧ (∀ d' i', o = some (d', i') → d ≤ d') ∧ ∀ k ∈ r :: l, Viol P x xtmp k → d ≤ ratio P x xtmp k) := by
      intro hr
      obtain ⟨h1, h2⟩ := ih o
      refine ⟨fun h => ⟨(h1 h).1, ?_⟩, fun d i h => ?_⟩
      · intro i hi
        rcases List.mem_cons.1 hi with rfl | hi
        · exact hr
        · exact (h1 h).2 i hi
      · obtain ⟨g1, g2, g3⟩ := h2 d i h
        refine ⟨g1.imp id fun g => ⟨List.mem_cons_of_mem _ g.1, g.2⟩, g2, ?_⟩
        intro k hk hv
        rcases List.mem_cons.1 hk with rfl | hk
        · exact absurd hv hr
        · exact g3 k hk hv
    have hax : inner P.n (P.a r) x = Ax P.n P.a x r := inner_spec _ _ _
    have haxt : inner P.n (P.a r) xtmp = Ax P.n P.a xtmp r := inner_spec _ _ _
    rw [hax, haxt, ht]
    by_cases h1 : P.b r ≤ Ax P.n P.a x r
    · rw [if_pos h1]
      exact hskip fun h => absurd h1 (not_le.2 h.1)
    · rw [if_neg h1]
      by_cases h2 : zIsTol (Ax P.n P.a x r - Ax P.n P.a xtmp r) 0 = true
      · rw [if_pos h2]
        refine hskip fun h => h.2 ?_
        have : |Ax P.n P.a x r - Ax P.n P.a xtmp r| ≤ 0 := of_decide_eq_true h2
        exact sub_eq_zero.1 (abs_nonpos_iff.1 this)
      · rw [if_neg h2]
        have hv : Viol P x xtmp r := ⟨not_le.1 h1, fun e => h2 (by rw [e, sub_self]; simp [zIsTol])⟩
        obtain ⟨g1, g2⟩ := ih (addMin ((P.b r - Ax P.n P.a xtmp r) / (Ax P.n P.a x r - Ax P.n P.a xtmp r)) r o)
        have hmin : ∃ d' i', addMin (ratio P x xtmp r) r o = some (d', i') ∧ d' ≤ ratio P x xtmp r ∧ (∀ d'' i'', o = some (d'', i'') → d' ≤ d'') ∧
            (o = some (d', i') ∨ d' = ratio P x xtmp r ∧ i' = r) := by
          cases o with
          | none => exact ⟨_, _, rfl, le_refl _, by simp, Or.inr ⟨rfl, rfl⟩⟩
          | some o =>
            obtain ⟨d0, i0⟩ := o
            unfold addMin
            dsimp only
            by_cases h3 : ratio P x xtmp r < d0
            · rw [if_pos h3]
              refine ⟨_, _, rfl, le_refl _, ?_, Or.inr ⟨rfl, rfl⟩⟩
              intro d'' i'' e
              cases e
              exact h3.le
            · rw [if_neg h3]
              refine ⟨_, _, rfl, not_lt.1 h3, ?_, Or.inl rfl⟩
              intro d'' i'' e
              cases e
              exact le_refl _
        obtain ⟨d', i', e, k1, k2, k3⟩ := hmin
        unfold ratio at e
        rw [e] at g1 g2 ⊢
        refine ⟨fun h => absurd (g1 h).1 (by simp), fun d i h => ?_⟩
        obtain ⟨f1, f2, f3⟩ := g2 d i h
        have hle := f2 d' i' rfl
        refine ⟨?_, fun d'' i'' h' => hle.trans (k2 d'' i'' h'), ?_⟩
        · rcases f1 with f1 | f1
          · cases f1
            rcases k3 with k3 | ⟨k3, k4⟩
            · exact Or.inl k3
            · subst k4
              exact Or.inr ⟨List.mem_cons_self, hv, k3⟩
          · exact Or.inr ⟨List.mem_cons_of_mem _ f1.1, f1.2⟩
        · intro k hk hvk
          rcases List.mem_cons.1 hk with rfl | hk
          · exact hle.trans k1
          · exact f3 k hk hvk

/-! ## Deleting constraints -/

theorem delLoop_spec {P : Prob K} (hins : ∀ l v, (P.ins l v).Perm (v :: l)) (lam : Nat → K) (ia nin : List Nat) :
    let s := delLoop P lam ia.length ⟨0, ia, nin, false⟩
    (s.ia ++ s.nin).Perm (ia ++ nin) ∧ s.ia.Sublist ia ∧ (s.viol = false → ∀ p < ia.length, 0 ≤ lam p) ∧ (s.viol = true → s.ia.length < ia.length) := by
  have key := forUp_inv (lo := 0) (hi := ia.length) (fun i (s : Del) =>
    if lam i < 0 then { s with ia := s.ia.eraseIdx s.ic, nin := P.ins s.nin (s.ia.getD s.ic 0), viol := true }
    else { s with ic := s.ic + 1 }) ⟨0, ia, nin, false⟩
    (fun i s => (s.ia ++ s.nin).Perm (ia ++ nin) ∧ s.ia.Sublist ia ∧ s.ic + ia.length = s.ia.length + i ∧ s.ic ≤ i ∧ (s.viol = false → ∀ p < i, 0 ≤ lam p) ∧ (s.viol = true → s.ic < i))
    (Nat.zero_le _) ⟨List.Perm.refl _, List.Sublist.refl _, by simp, le_refl _, by intro _ p hp; omega, by simp⟩ (by
      rintro i s - hi ⟨h1, h2, h3, h4, h5, h6⟩
      beta_reduce
      by_cases hl : lam i < 0
      · rw [if_pos hl]
        have hic : s.ic < s.ia.length := by omega
        refine ⟨?_, (List.eraseIdx_sublist _ _).trans h2, ?_, by dsimp only; omega, by simp, fun _ => by dsimp only; omega⟩
        · dsimp only
          refine List.Perm.trans ?_ h1
          rw [List.getD_eq_getElem _ _ hic]
          have e1 : (s.ia.eraseIdx s.ic ++ P.ins s.nin s.ia[s.ic]).Perm (s.ia.eraseIdx s.ic ++ (s.ia[s.ic] :: s.nin)) := (hins _ _).append_left _
          refine e1.trans ?_
          refine List.perm_middle.trans ?_
          rw [← List.cons_append]
          exact (List.getElem_cons_eraseIdx_perm hic).append_right _
        · dsimp only
          rw [List.length_eraseIdx_of_lt hic]
          omega
      · rw [if_neg hl]
        refine ⟨h1, h2, by dsimp only; omega, by dsimp only; omega, ?_, fun h => by have := h6 h; dsimp only; omega⟩
        intro hv p hp
        rcases Nat.lt_succ_iff_lt_or_eq.1 hp with hp | rfl
        · exact h5 hv p hp
        · exact not_lt.1 hl)
  unfold delLoop
  dsimp only
  obtain ⟨h1, h2, h3, h4, h5, h6⟩ := key
  exact ⟨h1, h2, h5, fun h => by have := h6 h; omega⟩

/-! ## The state of the loops -/

/-- The state: the two sets share the constraints out, the point kept is feasible and satisfies the constraints of the active set with equality, and
the constraints of the active set are independent. -/
structure Inv (P : Prob K) (st : St K) : Prop where
  perm : (st.ia ++ st.nin).Perm (List.range P.m)
  feas : Feasible P st.xtmp
  act : ∀ r ∈ st.ia, Ax P.n P.a st.xtmp r = P.b r
  indep : Indep P st.ia.toFinset

theorem Inv.nodup {P : Prob K} {st : St K} (h : Inv P st) : (st.ia ++ st.nin).Nodup := h.perm.nodup_iff.2 List.nodup_range

theorem Inv.lt {P : Prob K} {st : St K} (h : Inv P st) {i : Nat} (hi : i ∈ st.ia ∨ i ∈ st.nin) : i < P.m :=
  List.mem_range.1 (h.perm.mem_iff.1 (List.mem_append.2 hi))

theorem Inv.cover {P : Prob K} {st : St K} (h : Inv P st) {i : Nat} (hi : i < P.m) : i ∈ st.ia ∨ i ∈ st.nin :=
  List.mem_append.1 (h.perm.mem_iff.2 (List.mem_range.2 hi))

/-- The same constraint matrix applied to the next point. -/
theorem Ax_inter (n : Nat) (a : Nat → Nat → K) (u v : Nat → K) (d : K) (i : Nat) :
    Ax n a (fun j => u j + d * (v j - u j)) i = Ax n a u i + d * (Ax n a v i - Ax n a u i) := by
  unfold Ax
  rw [← sum_sub_distrib, mul_sum, ← sum_add_distrib]
  exact sum_congr rfl fun j _ => by ring

theorem addEq_none {P : Prob K} (ht : P.tol = 0) {st : St K} (h : Inv P st) {μ : Nat → K} (hs : Solved P st.ia.toFinset st.x μ) (e : addEq P st = none) :
    Feasible P st.x := by
  unfold addEq at e
  cases hsc : addScan P st.x st.xtmp st.nin none with
  | some o => rw [hsc] at e; cases e
  | none =>
    intro i hi
    rcases h.cover hi with hm | hm
    · exact (hs.eq i (List.mem_toFinset.2 hm)).ge
    · by_contra hlt
      push Not at hlt
      refine ((addScan_spec ht st.x st.xtmp st.nin none).1 hsc).2 i hm ⟨hlt, fun e => ?_⟩
      rw [e] at hlt
      exact absurd (h.feas i hi) (not_le.2 hlt)

theorem addEq_some {P : Prob K} (hP : Exact P) {st st' : St K} (h : Inv P st) {μ : Nat → K} (hs : Solved P st.ia.toFinset st.x μ) (e : addEq P st = some st') :
    Inv P st' ∧ st'.nin.length < st.nin.length := by
  unfold addEq at e
  cases hsc : addScan P st.x st.xtmp st.nin none with
  | none => rw [hsc] at e; cases e
  | some o =>
    obtain ⟨d, i⟩ := o
    rw [hsc] at e
    cases e
    obtain ⟨h1, -, h3⟩ := (addScan_spec hP.tol st.x st.xtmp st.nin none).2 d i hsc
    rcases h1 with h1 | ⟨him, hv, hd⟩
    · cases h1
    have hlen : (st.nin.erase i).length < st.nin.length := by
      rw [List.length_erase_of_mem him]
      have := List.length_pos_of_mem him
      omega
    have hnd := h.nodup
    have hia : i ∉ st.ia := fun h' => (List.nodup_append.1 hnd).2.2 i h' i him rfl
    have him' : i < P.m := h.lt (Or.inr him)
    have hneg : ∀ k, Viol P st.x st.xtmp k → Ax P.n P.a st.xtmp k ≥ P.b k → Ax P.n P.a st.x k - Ax P.n P.a st.xtmp k < 0 := fun k hk hf => by linarith [hk.1]
    have hd0 : 0 ≤ d := by
      rw [hd]
      have := hneg i hv (h.feas i him')
      exact div_nonneg_of_nonpos (by linarith [h.feas i him']) this.le
    have hd1 : d ≤ 1 := by
      rw [hd]
      have := hneg i hv (h.feas i him')
      unfold ratio
      rw [div_le_one_of_neg this]
      linarith [hv.1]
    refine ⟨⟨?_, ?_, ?_, ?_⟩, hlen⟩ <;> dsimp only
    · refine List.Perm.trans ?_ h.perm
      refine ((hP.ins _ _).append_right _).trans ?_
      rw [List.cons_append]
      refine List.Perm.trans ?_ ((List.perm_cons_erase him).symm.append_left st.ia)
      exact List.perm_middle.symm
    · intro k hk
      rw [Ax_inter]
      rcases h.cover hk with hm | hm
      · rw [hs.eq k (List.mem_toFinset.2 hm), h.act k hm, sub_self, mul_zero, add_zero]
      · have hf := h.feas k hk
        by_cases hvk : Viol P st.x st.xtmp k
        · have hr := h3 k hm hvk
          have hn := hneg k hvk hf
          have : P.b k - Ax P.n P.a st.xtmp k = ratio P st.x st.xtmp k * (Ax P.n P.a st.x k - Ax P.n P.a st.xtmp k) := by
            unfold ratio; rw [div_mul_cancel₀ _ hn.ne]
          have := mul_le_mul_of_nonpos_right hr hn.le
          linarith
        · by_cases hx : P.b k ≤ Ax P.n P.a st.x k
          · have h1 := mul_nonneg hd0 (sub_nonneg.2 hx)
            have h2 := mul_nonneg (sub_nonneg.2 hd1) (sub_nonneg.2 hf)
            linarith
          · have : Ax P.n P.a st.x k = Ax P.n P.a st.xtmp k := by
              by_contra hne
              exact hvk ⟨not_le.1 hx, hne⟩
            rw [this, sub_self, mul_zero, add_zero]
            exact hf
    · intro r hr
      rw [Ax_inter]
      rcases List.mem_cons.1 ((hP.ins _ _).mem_iff.1 hr) with rfl | hr
      · have hn := hneg r hv (h.feas r him')
        rw [hd]
        unfold ratio
        rw [div_mul_cancel₀ _ hn.ne]
        ring
      · rw [hs.eq r (List.mem_toFinset.2 hr), h.act r hr, sub_self, mul_zero, add_zero]
    · have : (P.ins st.ia i).toFinset = insert i st.ia.toFinset := by
        ext r
        rw [List.mem_toFinset, (hP.ins _ _).mem_iff, List.mem_cons, Finset.mem_insert, List.mem_toFinset]
      rw [this]
      refine h.indep.insert (by rw [List.mem_toFinset]; exact hia) (fun j => st.x j - st.xtmp j) ?_ ?_
      · intro r hr
        rw [Ax_sub, hs.eq r hr, h.act r (List.mem_toFinset.1 hr), sub_self]
      · rw [Ax_sub]
        exact (hneg i hv (h.feas i him')).ne

theorem delEq_spec {P : Prob K} (hP : Exact P) {st : St K} (h : Inv P st) :
    (delEq P st = none → ∀ p < st.ia.length, 0 ≤ st.lam p) ∧ (∀ st', delEq P st = some st' → Inv P st' ∧ st'.ia.length < st.ia.length) := by
  obtain ⟨h1, h2, h3, h4⟩ := delLoop_spec hP.ins st.lam st.ia st.nin
  unfold delEq
  dsimp only at h1 h2 h3 h4 ⊢
  generalize delLoop P st.lam st.ia.length ⟨0, st.ia, st.nin, false⟩ = s at h1 h2 h3 h4 ⊢
  cases hv : s.viol with
  | false => exact ⟨fun _ => h3 hv, fun st' e => by simp at e⟩
  | true =>
    refine ⟨fun e => by simp at e, fun st' e => ?_⟩
    rw [if_pos rfl] at e
    cases e
    exact ⟨⟨h1.trans h.perm, h.feas, fun r hr => h.act r (h2.subset hr), h.indep.mono fun r hr => List.mem_toFinset.2 (h2.subset (List.mem_toFinset.1 hr))⟩, h4 hv⟩

/-- The inner loop ends, and leaves a feasible solution of the equations of its active set. -/
theorem innerLoop_spec {P : Prob K} (hP : Exact P) {W : Pre K} (hp : PosDef P.n P.q) (hW : PreOk P W) (hnm : P.n ≤ P.m) : ∀ (k : Nat) (st : St K), Inv P st → st.nin.length < k →
    ∃ st', innerLoop P W k st = .ok (some st') ∧ Inv P st' ∧ Feasible P st'.x ∧ Solved P st'.ia.toFinset st'.x (fun r => st'.lam (st'.ia.idxOf r)) := by
  intro k
  induction k with
  | zero => intro st _ h; omega
  | succ k ih =>
    intro st h hk
    have hnd := (List.nodup_append.1 h.nodup).1
    obtain ⟨s, e, h1, h2, h3, h4⟩ := solveEq_spec hP.tol hp hW hnm st hnd (fun i hi => h.lt (Or.inl hi)) h.indep
    have hs : Inv P s := ⟨by rw [h1, h2]; exact h.perm, by rw [h3]; exact h.feas, by rw [h1, h3]; exact h.act, by rw [h1]; exact h.indep⟩
    rw [← h1] at h4
    unfold innerLoop
    rw [e]
    show ∃ st', (match addEq P s with | some st => innerLoop P W k st | none => .ok (some s)) = _ ∧ _
    cases ha : addEq P s with
    | none => exact ⟨s, rfl, hs, addEq_none hP.tol hs h4 ha, h4⟩
    | some s' =>
      obtain ⟨i1, i2⟩ := addEq_some hP hs h4 ha
      exact ih s' i1 (by rw [h2] at i2; omega)

theorem Inv.length {P : Prob K} {st : St K} (h : Inv P st) : st.nin.length < P.m + 1 := by
  have := h.perm.length_eq
  rw [List.length_append, List.length_range] at this
  omega

/-- If the outer loop ends, the conditions of Karush, Kuhn and Tucker hold. -/
theorem outerLoop_spec {P : Prob K} (hP : Exact P) {W : Pre K} (hs : SymmOn P.n P.q) (hp : PosDef P.n P.q) (hW : PreOk P W) (hnm : P.n ≤ P.m) : ∀ (k : Nat) (st : St K), Inv P st →
    ∃ o, outerLoop P W k st = .ok o ∧ ∀ st', o = some st' → Feasible P st'.x ∧ ∀ y, Feasible P y → obj P st'.x ≤ obj P y ∧ (obj P y = obj P st'.x → ∀ i < P.n, y i = st'.x i) := by
  intro k
  induction k with
  | zero => intro st _; exact ⟨none, rfl, by simp⟩
  | succ k ih =>
    intro st h
    obtain ⟨s, e, h1, h2, h3⟩ := innerLoop_spec hP hp hW hnm (P.m + 1) st h h.length
    unfold outerLoop
    rw [e]
    show ∃ o, (match delEq P s with | some st => outerLoop P W k st | none => .ok (some s)) = .ok o ∧ _
    obtain ⟨g1, g2⟩ := delEq_spec hP h1
    cases hd : delEq P s with
    | none =>
      refine ⟨_, rfl, ?_⟩
      intro st' e'
      cases e'
      refine ⟨h2, fun y hy => kkt P hs hp s.ia.toFinset (fun r hr => h1.lt (Or.inl (List.mem_toFinset.1 hr))) s.x _ h3.grad h3.eq (fun r hr => ?_) y hy⟩
      exact g1 hd _ (List.idxOf_lt_length_of_mem (List.mem_toFinset.1 hr))
    | some s' => exact ih s' (g2 s' hd).1

/-! ## The first point -/

theorem ext_sum (n m : Nat) (a : Nat → Nat → K) (X : Nat → K) {i : Nat} (hi : i < m) :
    ∑ j ∈ range (2 * n + m), extMat n m a i j * X j = Ax n a (fun j => X j - X (n + j)) i - X (2 * n + i) := by
  rw [sum_range_add, two_mul, sum_range_add]
  have e1 : ∑ j ∈ range n, extMat n m a i j * X j = ∑ j ∈ range n, a i j * X j :=
    sum_congr rfl fun j hj => by rw [extMat, if_pos (mem_range.1 hj)]
  have e2 : ∑ j ∈ range n, extMat n m a i (n + j) * X (n + j) = - ∑ j ∈ range n, a i j * X (n + j) := by
    rw [← sum_neg_distrib]
    refine sum_congr rfl fun j hj => ?_
    have := mem_range.1 hj
    rw [extMat, if_neg (by omega), if_pos (by omega), Nat.add_sub_cancel_left, neg_mul]
  have e3 : ∑ j ∈ range m, extMat n m a i (n + n + j) * X (n + n + j) = - X (n + n + i) := by
    rw [sum_eq_single_of_mem i (mem_range.2 hi)]
    · rw [extMat, if_neg (by omega), if_neg (by omega), if_pos (by omega), neg_one_mul]
    · intro j _ hne
      rw [extMat, if_neg (by omega), if_neg (by omega), if_neg (by omega), zero_mul]
  rw [e1, e2, e3, Ax, ← sub_eq_add_neg, ← sub_eq_add_neg, ← sum_sub_distrib]
  congr 1
  exact sum_congr rfl fun j _ => by ring

theorem ext_full (n m : Nat) (a : Nat → Nat → K) : FullRank m (2 * n + m) (extMat n m a) := by
  intro y hy k hk
  have := hy (2 * n + k) (by omega)
  rw [sum_eq_single_of_mem k (mem_range.2 hk)] at this
  · rw [extMat, if_neg (by omega), if_neg (by omega), if_pos rfl] at this
    linarith
  · intro j _ hne
    rw [extMat, if_neg (by omega), if_neg (by omega), if_neg (by omega), mul_zero]

/-- What the tableau at the end of the first phase says about the constraints. -/
structure BaseOk (P : Prob K) (t : Tab K) : Prop where
  wf : Wf (2 * P.n + P.m) t
  r : t.r = P.m
  ir : ∀ i, t.ir i = i
  sys : ∀ X, Sys (2 * P.n + P.m) t X ↔ ∀ i < P.m, Ax P.n P.a (fun j => X j - X (P.n + j)) i - X (2 * P.n + i) = P.b i

theorem baseOk {P : Prob K} (hP : Exact P) {t : Tab K} (h : phase2Start P.tst P.m (2 * P.n + P.m) (extMat P.n P.m P.a) P.b (fun _ => 0) = .ok t) :
    BaseOk P t ∧ Feas t := by
  rw [hP.tst] at h
  obtain ⟨h1, h2, h3, h4, -, h6⟩ := phase2_spec Tst.exact_good (by intro x hx; simpa [Tst.exact] using hx) h
    (Or.inl ⟨by intro x hx; simpa [Tst.exact] using hx, ext_full _ _ _⟩)
  refine ⟨⟨h1, h2, h3, fun X => ?_⟩, h6 rfl⟩
  rw [h4]
  exact forall₂_congr fun i hi => by rw [ext_sum _ _ _ _ hi]

/-- A direction along which the constraints do not change. -/
theorem BaseOk.homog {P : Prob K} {t : Tab K} (h : BaseOk P t) (D : Nat → K) :
    (∀ l < P.m, ∑ v ∈ range (2 * P.n + P.m), t.a l v * D v = 0) ↔ ∀ i < P.m, Ax P.n P.a (fun j => D j - D (P.n + j)) i = D (2 * P.n + i) := by
  obtain ⟨X, hX⟩ := exists_basic h.wf
  have h0 := basic_sys h.wf hX
  have h1 := (h.sys X).1 h0
  have h2 := h.sys (fun v => X v + D v)
  have e1 : ∀ l, ∑ v ∈ range (2 * P.n + P.m), t.a l v * (X v + D v) = ∑ v ∈ range (2 * P.n + P.m), t.a l v * X v + ∑ v ∈ range (2 * P.n + P.m), t.a l v * D v := fun l => by
    rw [← sum_add_distrib]; exact sum_congr rfl fun v _ => by ring
  have e2 : ∀ i, Ax P.n P.a (fun j => X j + D j - (X (P.n + j) + D (P.n + j))) i = Ax P.n P.a (fun j => X j - X (P.n + j)) i + Ax P.n P.a (fun j => D j - D (P.n + j)) i := fun i => by
    unfold Ax; rw [← sum_add_distrib]; exact sum_congr rfl fun v _ => by ring
  constructor
  · intro hD i hi
    have := h2.1 (fun l hl => by
      have g := h0 l hl
      rw [h.r] at hl
      rw [h.ir] at g ⊢
      rw [e1, g, hD l hl, add_zero]) i hi
    beta_reduce at this
    rw [e2] at this
    linarith [h1 i hi]
  · intro hD l hl
    have := h2.2 (fun i hi => by
      beta_reduce
      rw [e2]
      linarith [h1 i hi, hD i hi]) l (by rw [h.r]; exact hl)
    rw [h.ir, e1] at this
    have g := h0 l (by rw [h.r]; exact hl)
    rw [h.ir] at g
    linarith

/-- The positive and the negative part of a variable are not both basic. -/
theorem BaseOk.excl {P : Prob K} {t : Tab K} (h : BaseOk P t) {j l l' : Nat} (hj : j < P.n) (hl : l < P.m) (hl' : l' < P.m) (e : t.ib l = j) (e' : t.ib l' = P.n + j) : False := by
  have hll : l ≠ l' := by rintro rfl; omega
  have := (h.homog (fun v => (if v = j then 1 else 0) + if v = P.n + j then 1 else 0)).2 (fun i hi => by
    beta_reduce
    rw [if_neg (by omega), if_neg (by omega), add_zero]
    refine sum_eq_zero fun k hk => ?_
    have hk := mem_range.1 hk
    beta_reduce
    by_cases hkj : k = j
    · subst hkj
      rw [if_pos rfl, if_neg (by omega), if_neg (by omega), if_pos rfl]; ring
    · rw [if_neg hkj, if_neg (by omega), if_neg (by omega), if_neg (by omega)]; ring) l hl
  simp only [mul_add, sum_add_distrib, mul_ite, mul_one, mul_zero, sum_ite_eq', mem_range] at this
  rw [if_pos (by omega), if_pos (by omega), ← e', ← e] at this
  have u1 := h.wf.unit l (by rw [h.r]; exact hl) l (by rw [h.r]; exact hl)
  have u2 := h.wf.unit l (by rw [h.r]; exact hl) l' (by rw [h.r]; exact hl')
  rw [h.ir, if_pos rfl] at u1
  rw [h.ir, if_neg hll] at u2
  rw [u1, u2] at this
  norm_num at this

/-- The constraints whose slack is not basic are independent. -/
theorem BaseOk.indep {P : Prob K} {t : Tab K} (h : BaseOk P t) (S : Finset Nat) (hS : ∀ i ∈ S, i < P.m ∧ ∀ k < P.m, t.ib k ≠ 2 * P.n + i) : Indep P S := by
  intro y hy i0 hi0
  obtain ⟨t', ht'⟩ : ∃ t' : Tab K, t' = { t with b := fun k => - t.a k (2 * P.n + i0) } := ⟨_, rfl⟩
  have w : Wf (2 * P.n + P.m) t' := by
    rw [ht']
    exact ⟨h.wf.ib_lt, h.wf.nb_lt, h.wf.ib_inj, h.wf.nb_nodup, h.wf.disj, h.wf.cover, h.wf.ir_inj, h.wf.unit⟩
  obtain ⟨X, hX⟩ := exists_basic w
  have hs := basic_sys w hX
  rw [ht'] at hs hX
  obtain ⟨D, hD⟩ : ∃ D : Nat → K, D = fun v => X v + if v = 2 * P.n + i0 then 1 else 0 := ⟨_, rfl⟩
  have h1 := (h.homog D).1 (fun l hl => by
    have g := hs l (by rw [h.r]; exact hl)
    dsimp only at g
    rw [h.ir] at g
    rw [hD]
    simp only [mul_add, sum_add_distrib, mul_ite, mul_one, mul_zero, sum_ite_eq', mem_range]
    rw [g, if_pos (by have := (hS i0 hi0).1; omega)]
    ring)
  have h2 : ∀ i ∈ S, D (2 * P.n + i) = if i = i0 then 1 else 0 := by
    intro i hi
    rw [hD]
    beta_reduce
    rw [hX.2 (2 * P.n + i) (fun k hk => (hS i hi).2 k (by rw [← h.r]; exact hk)), zero_add]
    exact if_congr (by omega) rfl rfl
  have h3 : ∑ i ∈ S, y i * Ax P.n P.a (fun j => D j - D (P.n + j)) i = 0 := by
    have : ∑ i ∈ S, y i * Ax P.n P.a (fun j => D j - D (P.n + j)) i = ∑ j ∈ range P.n, (∑ i ∈ S, y i * P.a i j) * (D j - D (P.n + j)) := by
      simp only [Ax, mul_sum, sum_mul]
      rw [sum_comm]
      exact sum_congr rfl fun i _ => sum_congr rfl fun j _ => by ring
    rw [this]
    exact sum_eq_zero fun j hj => by rw [hy j (mem_range.1 hj), zero_mul]
  rw [sum_congr rfl fun i hi => by rw [h1 i (hS i hi).1, h2 i hi]] at h3
  simpa [hi0] using h3

/-- The first point is feasible; the constraints whose slack is not basic hold with equality and are independent. -/
theorem initBase_ok {P : Prob K} (hP : Exact P) {t : Tab K} (ht : phase2Start P.tst P.m (2 * P.n + P.m) (extMat P.n P.m P.a) P.b (fun _ => 0) = .ok t) :
    ∃ st, initBase P = .ok st ∧ Inv P st := by
    unfold initBase
    rw [ht]
    dsimp only
    obtain ⟨hb, hf⟩ := baseOk hP ht
    have hr := hb.r
    obtain ⟨X, hX⟩ := exists_basic hb.wf
    have hX0 := basic_nonneg hf hX
    have hXs := (hb.sys X).1 (basic_sys hb.wf hX)
    have hXb : ∀ k < P.m, X (t.ib k) = t.b k := fun k hk => by rw [hX.1 k (by omega), hb.ir]
    have hXn : ∀ v, (∀ k < P.m, t.ib k ≠ v) → X v = 0 := fun v hv => hX.2 v fun k hk => hv k (by omega)
    obtain ⟨s, e, hs⟩ : ∃ s, forUpM 0 t.r (baseStep P t) ((fun _ => 0), (List.range t.r).map t.ir, []) = .ok s ∧
        (s.2.1 ++ s.2.2).Perm (List.range P.m) ∧ (∀ i, i ∈ s.2.2 ↔ ∃ l < P.m, t.ib l = 2 * P.n + i) ∧
        (∀ j < P.n, (∀ l < P.m, t.ib l = j → s.1 j = X j) ∧ (∀ l < P.m, t.ib l = P.n + j → s.1 j = - X (P.n + j)) ∧
          ((∀ l < P.m, t.ib l ≠ j ∧ t.ib l ≠ P.n + j) → s.1 j = 0)) := by
      rw [hr]
      refine forUpM_ok (baseStep P t) _ (fun k s => (s.2.1 ++ s.2.2).Perm (List.range P.m) ∧ (∀ i, i ∈ s.2.2 ↔ ∃ l < k, t.ib l = 2 * P.n + i) ∧
        (∀ j < P.n, (∀ l < k, t.ib l = j → s.1 j = X j) ∧ (∀ l < k, t.ib l = P.n + j → s.1 j = - X (P.n + j)) ∧
          ((∀ l < k, t.ib l ≠ j ∧ t.ib l ≠ P.n + j) → s.1 j = 0))) (Nat.zero_le _) ?_ ?_
      · refine ⟨?_, by simp, fun j _ => ⟨by simp, by simp, by simp⟩⟩
        rw [List.append_nil, show t.ir = id from funext hb.ir, List.map_id]
      · rintro k s - hk ⟨i1, i2, i3⟩
        unfold baseStep
        dsimp only
        have hlt := hb.wf.ib_lt k (by omega)
        by_cases c1 : t.ib k < P.n
        · rw [if_pos c1]
          refine ⟨_, rfl, i1, ?_, ?_⟩
          · intro i
            rw [i2]
            constructor
            · rintro ⟨l, hl, el⟩; exact ⟨l, by omega, el⟩
            · rintro ⟨l, hl, el⟩
              exact ⟨l, by rcases Nat.lt_succ_iff_lt_or_eq.1 hl with hl | rfl <;> omega, el⟩
          · intro j hj
            dsimp only
            by_cases hjk : j = t.ib k
            · rw [hjk, set1_same]
              refine ⟨fun l hl el => ?_, fun l hl el => ?_, fun hn => ?_⟩
              · rw [hXb k hk]
              · exact (hb.excl c1 hk (by omega) rfl el).elim
              · exact absurd rfl (hn k (by omega)).1
            · rw [set1_ne _ _ hjk]
              obtain ⟨j1, j2, j3⟩ := i3 j hj
              refine ⟨fun l hl el => ?_, fun l hl el => ?_, fun hn => j3 fun l hl => hn l (by omega)⟩
              · rcases Nat.lt_succ_iff_lt_or_eq.1 hl with hl | rfl
                · exact j1 l hl el
                · exact absurd el.symm hjk
              · rcases Nat.lt_succ_iff_lt_or_eq.1 hl with hl | rfl
                · exact j2 l hl el
                · omega
        · rw [if_neg c1]
          by_cases c2 : t.ib k < 2 * P.n
          · rw [if_pos c2]
            refine ⟨_, rfl, i1, ?_, ?_⟩
            · intro i
              rw [i2]
              constructor
              · rintro ⟨l, hl, el⟩; exact ⟨l, by omega, el⟩
              · rintro ⟨l, hl, el⟩
                exact ⟨l, by rcases Nat.lt_succ_iff_lt_or_eq.1 hl with hl | rfl <;> omega, el⟩
            · intro j hj
              dsimp only
              by_cases hjk : j = t.ib k - P.n
              · have ek : P.n + j = t.ib k := by omega
                rw [hjk, set1_same, ← hjk]
                refine ⟨fun l hl el => ?_, fun l hl el => ?_, fun hn => ?_⟩
                · exact (hb.excl hj (by omega) hk el ek.symm).elim
                · rw [ek, hXb k hk]
                · exact absurd ek.symm (hn k (by omega)).2
              · rw [set1_ne _ _ hjk]
                obtain ⟨j1, j2, j3⟩ := i3 j hj
                refine ⟨fun l hl el => ?_, fun l hl el => ?_, fun hn => j3 fun l hl => hn l (by omega)⟩
                · rcases Nat.lt_succ_iff_lt_or_eq.1 hl with hl | rfl
                  · exact j1 l hl el
                  · omega
                · rcases Nat.lt_succ_iff_lt_or_eq.1 hl with hl | rfl
                  · exact j2 l hl el
                  · omega
          · rw [if_neg c2, if_pos (by omega)]
            refine ⟨_, rfl, ?_, ?_, ?_⟩
            · dsimp only
              have hmem : t.ib k - 2 * P.n ∈ s.2.1 := by
                have : t.ib k - 2 * P.n ∈ s.2.1 ++ s.2.2 := i1.mem_iff.2 (List.mem_range.2 (by omega))
                rcases List.mem_append.1 this with g | g
                · exact g
                · obtain ⟨l, hl, el⟩ := (i2 _).1 g
                  have := hb.wf.ib_inj l (by omega) k (by omega) (by omega)
                  omega
              refine List.Perm.trans ?_ i1
              refine ((hP.ins _ _).append_left _).trans ?_
              refine List.perm_middle.trans ?_
              rw [← List.cons_append]
              exact (List.perm_cons_erase hmem).symm.append_right _
            · intro i
              dsimp only
              rw [(hP.ins _ _).mem_iff, List.mem_cons, i2]
              constructor
              · rintro (rfl | ⟨l, hl, el⟩)
                · exact ⟨k, by omega, by omega⟩
                · exact ⟨l, by omega, el⟩
              · rintro ⟨l, hl, el⟩
                rcases Nat.lt_succ_iff_lt_or_eq.1 hl with hl | rfl
                · exact Or.inr ⟨l, hl, el⟩
                · exact Or.inl (by omega)
            · intro j hj
              dsimp only
              obtain ⟨j1, j2, j3⟩ := i3 j hj
              refine ⟨fun l hl el => ?_, fun l hl el => ?_, fun hn => j3 fun l hl => hn l (by omega)⟩
              · rcases Nat.lt_succ_iff_lt_or_eq.1 hl with hl | rfl
                · exact j1 l hl el
                · omega
              · rcases Nat.lt_succ_iff_lt_or_eq.1 hl with hl | rfl
                · exact j2 l hl el
                · omega
    obtain ⟨s1, s2, s3⟩ := hs
    rw [e]
    have hx : ∀ j < P.n, s.1 j = X j - X (P.n + j) := by
      intro j hj
      obtain ⟨j1, j2, j3⟩ := s3 j hj
      by_cases g1 : ∃ l, l < P.m ∧ t.ib l = j
      · obtain ⟨l, hl, el⟩ := g1
        rw [j1 l hl el, hXn (P.n + j) fun k hk ek => hb.excl hj hl hk el ek, sub_zero]
      · by_cases g2 : ∃ l, l < P.m ∧ t.ib l = P.n + j
        · obtain ⟨l, hl, el⟩ := g2
          rw [j2 l hl el, hXn j fun k hk ek => hb.excl hj hk hl ek el, zero_sub]
        · rw [j3 fun l hl => ⟨fun e => g1 ⟨l, hl, e⟩, fun e => g2 ⟨l, hl, e⟩⟩, hXn j fun k hk ek => g1 ⟨k, hk, ek⟩, hXn _ fun k hk ek => g2 ⟨k, hk, ek⟩, sub_zero]
    have hax : ∀ i < P.m, Ax P.n P.a s.1 i = P.b i + X (2 * P.n + i) := fun i hi => by
      rw [Ax_congr _ _ _ _ hx i]
      linarith [hXs i hi]
    have hnb : ∀ i ∈ s.2.1, i < P.m ∧ ∀ k < P.m, t.ib k ≠ 2 * P.n + i := by
      intro i hi
      refine ⟨List.mem_range.1 (s1.mem_iff.1 (List.mem_append_left _ hi)), fun k hk ek => ?_⟩
      exact (List.nodup_append.1 (s1.nodup_iff.2 List.nodup_range)).2.2 i hi i ((s2 i).2 ⟨k, hk, ek⟩) rfl
    refine ⟨_, rfl, s1, ?_, ?_, ?_⟩
    · intro i hi
      dsimp only
      rw [hax i hi]
      linarith [hX0 (2 * P.n + i)]
    · intro i hi
      dsimp only at hi ⊢
      rw [hax i (hnb i hi).1, hXn _ (hnb i hi).2, add_zero]
    · exact hb.indep _ fun i hi => hnb i (List.mem_toFinset.1 hi)

theorem initBase_cases {P : Prob K} (hP : Exact P) (hm : 0 < P.m) : initBase P = .fail ∨ ∃ st, initBase P = .ok st ∧ Inv P st := by
  cases ht : phase2Start P.tst P.m (2 * P.n + P.m) (extMat P.n P.m P.a) P.b (fun _ => 0) with
  | fail => left; unfold initBase; rw [ht]
  | ub =>
    rw [hP.tst] at ht
    exact absurd ht (phase2Start_no_ub (by omega) (ext_full _ _ _))
  | ok t => exact Or.inr (initBase_ok hP ht)

theorem initBase_inv {P : Prob K} (hP : Exact P) {st : St K} (h : initBase P = .ok st) : Inv P st := by
  cases ht : phase2Start P.tst P.m (2 * P.n + P.m) (extMat P.n P.m P.a) P.b (fun _ => 0) with
  | fail => unfold initBase at h; rw [ht] at h; cases h
  | ub => unfold initBase at h; rw [ht] at h; cases h
  | ok t =>
    obtain ⟨st', e, hi⟩ := initBase_ok hP ht
    rw [e] at h
    cases h
    exact hi

/-! ## The method -/

theorem check_iff {P : Prob K} (hP : Exact P) (hsq : SqrtOk P.sqrt) : check P = true ↔ SymmOn P.n P.q ∧ PosDef P.n P.q := by
  have hsym : (∀ i < P.n, ∀ j < P.n, i < j → P.q i j = P.q j i) ↔ SymmOn P.n P.q := by
    constructor
    · intro h i j hi hj
      rcases lt_trichotomy i j with g | g | g
      · exact h i hi j hj g
      · rw [g]
      · exact (h j hj i hi g).symm
    · intro h i hi j hj _
      exact h i j hi hj
  unfold check
  rw [hP.tol, Bool.and_eq_true, decide_eq_true_eq, hsym]
  refine and_congr_right fun hs => ?_
  rw [← zMatDecompCholesky_definite_iff P.sqrt hsq P.n P.q hs]
  cases e : zMatDecompCholesky 0 P.sqrt P.n P.q with
  | ok r =>
    obtain ⟨l, idx, rank⟩ := r
    dsimp only
    rw [decide_eq_true_eq]
    constructor
    · intro h; exact ⟨l, idx, rank, rfl, h⟩
    · rintro ⟨l', idx', rank', e', h⟩
      cases e'
      exact h
  | fail => simp
  | ub => simp

/-- C144, `zQPSolveASM`: with fewer constraints than variables the working vector of one number per constraint is written beyond its end. -/
theorem zQPSolveASM_overflow_violated {P : Prob K} (hP : Exact P) (hc : check P = true) (hp : PosDef P.n P.q) (hmn : P.m < P.n) {st : St K} (h : initBase P = .ok st) (fuel : Nat) :
    zQPSolveASM P (fuel + 1) = .ub := by
  obtain ⟨W, e, hW⟩ := init_spec P hP.tol hp
  unfold zQPSolveASM
  rw [if_pos hc, e]
  show (initBase P).bind _ = _
  rw [h]
  show (outerLoop P W (fuel + 1) st).bind _ = _
  have : solveEq P W st = .ub := by
    unfold solveEq
    have hx : ∀ lam, solveX P W st.ia lam = .ub := fun lam => by unfold solveX; rw [if_pos hmn]
    cases hl : solveLam P W st.ia st.lam with
    | ub => rfl
    | ok lam => show (solveX P W st.ia lam).bind _ = _; rw [hx]; rfl
    | fail =>
      unfold solveLam at hl
      cases hg : gaussSolve P.tol st.ia.length (fun i j => W.aqinvat (st.ia.getD i 0) (st.ia.getD j 0)) (fun i => W.aqinvcb (st.ia.getD i 0)) st.lam <;> rw [hg] at hl <;> cases hl
  unfold outerLoop innerLoop
  rw [this]
  rfl

/-- C143, `zQPSolveASM` for a symmetric and positive definite matrix: an answer satisfies the constraints, the value returned is that of the objective, no
other point that satisfies the constraints is better, and none is as good. -/
theorem zQPSolveASM_optimal_posDef {P : Prob K} (hP : Exact P) (hs : SymmOn P.n P.q) (hp : PosDef P.n P.q) {fuel : Nat} {x : Nat → K} {v : K} (h : zQPSolveASM P fuel = .ok (some (x, v))) :
    Feasible P x ∧ v = obj P x ∧ ∀ y, Feasible P y → obj P x ≤ obj P y ∧ (obj P y = obj P x → ∀ i < P.n, y i = x i) := by
  unfold zQPSolveASM at h
  by_cases hc : check P = true
  · obtain ⟨W, e, hW⟩ := init_spec P hP.tol hp
    cases hb : initBase P with
    | fail => rw [if_pos hc, e] at h; change (initBase P).bind _ = _ at h; rw [hb] at h; cases h
    | ub => rw [if_pos hc, e] at h; change (initBase P).bind _ = _ at h; rw [hb] at h; cases h
    | ok st =>
      by_cases hmn : P.m < P.n
      · exfalso
        cases fuel with
        | zero =>
          rw [if_pos hc, e] at h
          change (initBase P).bind _ = _ at h
          rw [hb] at h
          cases h
        | succ fuel =>
          have := zQPSolveASM_overflow_violated hP hc hp hmn hb fuel
          unfold zQPSolveASM at this
          rw [this] at h
          cases h
      · rw [if_pos hc, e] at h
        change (initBase P).bind _ = _ at h
        rw [hb] at h
        change (outerLoop P W fuel st).bind _ = _ at h
        obtain ⟨o, eo, ho⟩ := outerLoop_spec hP hs hp hW (by omega) fuel st (initBase_inv hP hb)
        rw [eo] at h
        have h1 := Res.ok.inj h
        rw [Option.map_eq_some_iff] at h1
        obtain ⟨s, es, e1⟩ := h1
        cases e1
        obtain ⟨f1, f2⟩ := ho s es
        exact ⟨f1, LCP.zQuadraticValue_spec P.n P.q P.c s.x, f2⟩
  · rw [if_neg hc] at h
    cases h

/-- C143, `zQPSolveASM`: the same of every matrix, since those that are not symmetric and positive definite are refused. -/
theorem zQPSolveASM_optimal {P : Prob K} (hP : Exact P) (hsq : SqrtOk P.sqrt) {fuel : Nat} {x : Nat → K} {v : K} (h : zQPSolveASM P fuel = .ok (some (x, v))) :
    Feasible P x ∧ v = obj P x ∧ ∀ y, Feasible P y → obj P x ≤ obj P y ∧ (obj P y = obj P x → ∀ i < P.n, y i = x i) := by
  by_cases hc : check P = true
  · obtain ⟨hs, hp⟩ := (check_iff hP hsq).1 hc
    exact zQPSolveASM_optimal_posDef hP hs hp h
  · unfold zQPSolveASM at h
    rw [if_neg hc] at h
    cases h

/-- C146, `zQPSolveASM`: a matrix that is not symmetric or not positive definite is refused, and so are constraints that cannot be satisfied. -/
theorem zQPSolveASM_refuses {P : Prob K} (hP : Exact P) (hsq : SqrtOk P.sqrt) (fuel : Nat) :
    (¬ (SymmOn P.n P.q ∧ PosDef P.n P.q) → zQPSolveASM P fuel = .fail) ∧ (0 < P.m → (∀ y, ¬ Feasible P y) → zQPSolveASM P fuel = .fail) := by
  have h1 : ¬ (SymmOn P.n P.q ∧ PosDef P.n P.q) → zQPSolveASM P fuel = .fail := fun h => by
    unfold zQPSolveASM
    rw [if_neg fun hc => h ((check_iff hP hsq).1 hc)]
  refine ⟨h1, fun hm h => ?_⟩
  by_cases hq : SymmOn P.n P.q ∧ PosDef P.n P.q
  · obtain ⟨W, e, hW⟩ := init_spec P hP.tol hq.2
    rcases initBase_cases hP hm with hb | ⟨st, hb, hi⟩
    · unfold zQPSolveASM
      rw [if_pos ((check_iff hP hsq).2 hq), e]
      show (initBase P).bind _ = _
      rw [hb]
      rfl
    · exact absurd hi.feas (h _)
  · exact h1 hq

/-- C144, `zQPSolveASM` with at least as many constraints as variables: no access outside of the arrays, no division by zero. -/
theorem zQPSolveASM_no_ub_partial {P : Prob K} (hP : Exact P) (hsq : SqrtOk P.sqrt) (hm : 0 < P.m) (hnm : P.n ≤ P.m) (fuel : Nat) : zQPSolveASM P fuel ≠ .ub := by
  by_cases hq : SymmOn P.n P.q ∧ PosDef P.n P.q
  · obtain ⟨W, e, hW⟩ := init_spec P hP.tol hq.2
    unfold zQPSolveASM
    rw [if_pos ((check_iff hP hsq).2 hq), e]
    show (initBase P).bind _ ≠ _
    rcases initBase_cases hP hm with hb | ⟨st, hb, hi⟩
    · rw [hb]; simp [Res.bind]
    · rw [hb]
      obtain ⟨o, eo, -⟩ := outerLoop_spec hP hq.1 hq.2 hW hnm fuel st hi
      show (outerLoop P W fuel st).bind _ ≠ _
      rw [eo]
      simp [Res.bind]
  · rw [(zQPSolveASM_refuses hP hsq fuel).1 hq]
    simp

/-! ## Examples -/

/-- Insertion in ascending order. -/
def insAsc (l : List Nat) (v : Nat) : List Nat := l.takeWhile (· < v) ++ v :: l.dropWhile (· < v)

/-- Insertion at the end. -/
def insEnd (l : List Nat) (v : Nat) : List Nat := l ++ [v]

theorem insAsc_perm (l : List Nat) (v : Nat) : (insAsc l v).Perm (v :: l) := by
  unfold insAsc
  refine List.perm_middle.trans ?_
  rw [List.takeWhile_append_dropWhile]

theorem insEnd_perm (l : List Nat) (v : Nat) : (insEnd l v).Perm (v :: l) := by
  unfold insEnd
  exact List.perm_append_singleton v l

/-- The point of `x ≥ 1`, `x + y ≥ 3` next to the origin. -/
def near : Prob ℚ where
  n := 2
  m := 2
  q := fun i j => if i = j then 1 else 0
  c := fun _ => 0
  a := tblM [[1, 0], [1, 1]]
  b := tblV [1, 3]
  tst := Tst.exact
  tol := 0
  sqrt := fun x => x
  ins := insAsc

theorem near_exact : Exact near := ⟨rfl, rfl, insAsc_perm⟩

theorem posDef_one (n : Nat) : PosDef n (fun i j => if i = j then (1:K) else 0) := by
  rintro x ⟨i, hi, hx⟩
  have e : ∑ r ∈ range n, ∑ s ∈ range n, x r * x s * (if r = s then (1:K) else 0) = ∑ r ∈ range n, x r * x r := by
    refine sum_congr rfl fun r hr => ?_
    rw [sum_eq_single_of_mem r hr fun s _ hne => by rw [if_neg (Ne.symm hne), mul_zero], if_pos rfl, mul_one]
  rw [e]
  exact sum_pos' (fun r _ => mul_self_nonneg _) ⟨i, mem_range.2 hi, mul_self_pos.2 hx⟩

theorem symmOn_one (n : Nat) : SymmOn n (fun i j => if i = j then (1:K) else 0) := by
  intro i j _ _
  by_cases h : i = j
  · rw [h]
  · beta_reduce; rw [if_neg h, if_neg (Ne.symm h)]

example : ∃ x v, zQPSolveASM near 3 = .ok (some (x, v)) ∧ x 0 = 3/2 ∧ x 1 = 3/2 ∧ v = 9/4 ∧
    ∀ y, Feasible near y → obj near x ≤ obj near y := by
  have h : (match zQPSolveASM near 3 with | .ok (some (x, v)) => decide (x 0 = 3/2) && decide (x 1 = 3/2) && decide (v = 9/4) | _ => false) = true := by decide +kernel
  cases e : zQPSolveASM near 3 with
  | fail => rw [e] at h; cases h
  | ub => rw [e] at h; cases h
  | ok o =>
    cases o with
    | none => rw [e] at h; cases h
    | some r =>
      obtain ⟨x, v⟩ := r
      rw [e] at h
      simp only [Bool.and_eq_true, decide_eq_true_eq] at h
      exact ⟨x, v, rfl, h.1.1, h.1.2, h.2, fun y hy => ((zQPSolveASM_optimal_posDef near_exact (symmOn_one 2) (posDef_one 2) e).2.2 y hy).1⟩

/-- C144: the nearest point of a half plane to the origin, one constraint on two variables; any square root that is right for 1, with the tolerance
of the code. -/
theorem zQPSolveASM_halfplane_violated : (match zQPSolveASM { near with m := 1, tst := Tst.code (1/10^12), tol := 1/10^12 } 1 with | .ub => true | _ => false) = true := by decide +kernel

/-! ## Cycling -/

theorem backward_indep {V : Type*} [AddCommGroup V] [Module K V] (n : Nat) (st : GS K V) (r r' : Nat → V) : ∀ i < n, backward n st r i = backward n st r' i := by
  have key : ∀ (k : Nat) (r r' : Nat → V), k ≤ n → (∀ i, k ≤ i → i < n → r i = r' i) →
      ∀ i < n, forDown 0 k (fun i ans => set1 ans i (forDown (i+1) n (fun j x => x - st.a (st.idx i) j • ans j) (st.b (st.idx i)))) r i =
        forDown 0 k (fun i ans => set1 ans i (forDown (i+1) n (fun j x => x - st.a (st.idx i) j • ans j) (st.b (st.idx i)))) r' i := by
    intro k
    induction k with
    | zero =>
      intro r r' _ h i hi
      rw [forDown_of_le (le_refl _), forDown_of_le (le_refl _)]
      exact h i (Nat.zero_le _) hi
    | succ k ih =>
      intro r r' hk h
      rw [forDown_succ (Nat.zero_le _), forDown_succ (Nat.zero_le _)]
      refine ih _ _ (by omega) ?_
      intro i hi hin
      by_cases hik : i = k
      · rw [hik, set1_same, set1_same, forDown_sub _ _ _ _ (by omega), forDown_sub _ _ _ _ (by omega)]
        congr 1
        refine sum_congr rfl fun j hj => ?_
        rw [mem_Ico] at hj
        rw [h j (by omega) hj.2]
      · rw [set1_ne _ _ hik, set1_ne _ _ hik]
        exact h i (by omega) hin
  exact key n r r' (le_refl _) (fun i h1 h2 => by omega)

/-- What is found does not depend on what was stored before. -/
theorem gaussSolve_indep {V : Type*} [AddCommGroup V] [Module K V] (tol : K) (n : Nat) (A : Nat → Nat → K) (B r r' x : Nat → V) (h : gaussSolve tol n A B r = .ok x) :
    ∃ x', gaussSolve tol n A B r' = .ok x' ∧ ∀ i < n, x i = x' i := by
  unfold gaussSolve gaussSolveIdx at h ⊢
  dsimp only at h ⊢
  obtain ⟨G, hG⟩ : ∃ G, G = forUpM 0 n (forwardStep tol n) { a := (rowBalancingDST n n (zMatColBalancingDST n n A fun _ => 0).1 B).1, b := (rowBalancingDST n n (zMatColBalancingDST n n A fun _ => 0).1 B).2, idx := fun i => i } := ⟨_, rfl⟩
  rw [← hG] at h ⊢
  cases G with
  | fail => cases h
  | ub => cases h
  | ok st =>
    dsimp only [Res.bind] at h ⊢
    cases h
    refine ⟨_, rfl, fun i hi => ?_⟩
    have hs : ∀ w : Nat → V, forUp 0 n (fun i ans => set1 ans i ((zMatColBalancingDST n n A fun _ => 0).2 i • ans i)) w i = (zMatColBalancingDST n n A fun _ => 0).2 i • w i := by
      intro w
      have := forUp_inv (lo := 0) (hi := n) (fun i ans => set1 ans i ((zMatColBalancingDST n n A fun _ => 0).2 i • ans i)) w
        (fun k s => ∀ j, s j = if j < k then (zMatColBalancingDST n n A fun _ => 0).2 j • w j else w j) (Nat.zero_le _) (by simp) (by
          intro k s _ hk hs j
          beta_reduce
          by_cases hj : j = k
          · rw [hj, set1_same, hs k, if_neg (by omega), if_pos (by omega)]
          · rw [set1_ne _ _ hj, hs j]
            exact if_congr (by omega) rfl rfl) i
      rw [this, if_pos hi]
    rw [hs, hs, backward_indep n st r r' i hi]

/-- Two states that the method cannot tell apart. -/
def Sim (P : Prob K) (s t : St K) : Prop := (∀ j < P.n, s.xtmp j = t.xtmp j) ∧ s.ia = t.ia ∧ s.nin = t.nin

/-- The inner loop, if every equation is solved. -/
def cInner (P : Prob K) (W : Pre K) : Nat → St K → Option (St K)
  | 0, _ => none
  | k+1, st =>
    match gaussSolve P.tol st.ia.length (fun i j => W.aqinvat (st.ia.getD i 0) (st.ia.getD j 0)) (fun i => W.aqinvcb (st.ia.getD i 0)) st.lam with
    | .ok lam =>
      match solveX P W st.ia lam with
      | .ok x =>
        match addEq P { st with x := x, lam := lam } with
        | some st => cInner P W k st
        | none => some { st with x := x, lam := lam }
      | _ => none
    | _ => none

/-- `k` turns of the outer loop, if every equation is solved. -/
def cTurns (P : Prob K) (W : Pre K) : Nat → St K → Option (St K)
  | 0, st => some st
  | k+1, st =>
    match cInner P W (P.m + 1) st with
    | some s =>
      match delEq P s with
      | some s => cTurns P W k s
      | none => none
    | none => none

theorem addScan_sim (P : Prob K) (x u v : Nat → K) (h : ∀ j < P.n, u j = v j) (l : List Nat) : ∀ o, addScan P x u l o = addScan P x v l o := by
  have e : ∀ i, inner P.n (P.a i) u = inner P.n (P.a i) v := fun i => by
    rw [inner_spec, inner_spec]
    exact sum_congr rfl fun j hj => by rw [h j (mem_range.1 hj)]
  induction l with
  | nil => intro o; rfl
  | cons i l ih =>
    intro o
    unfold addScan
    dsimp only
    rw [e i, ih, ih]

theorem addEq_sim {P : Prob K} {s t : St K} (h : Sim P s t) (hx : s.x = t.x) :
    (addEq P s = none → addEq P t = none) ∧ (∀ s', addEq P s = some s' → ∃ t', addEq P t = some t' ∧ Sim P s' t') := by
  obtain ⟨h1, h2, h3⟩ := h
  unfold addEq
  rw [← hx, ← h3, ← h2, ← addScan_sim P s.x s.xtmp t.xtmp h1 s.nin none]
  cases hsc : addScan P s.x s.xtmp s.nin none with
  | none => exact ⟨fun _ => rfl, fun s' e => by cases e⟩
  | some o =>
    obtain ⟨d, i⟩ := o
    refine ⟨fun e => (by cases e), fun s' e => ?_⟩
    cases e
    exact ⟨_, rfl, fun j hj => by dsimp only; rw [h1 j hj], rfl, rfl⟩

theorem solveX_sim (P : Prob K) (W : Pre K) (ia : List Nat) (l l' : Nat → K) (h : ∀ i < ia.length, l i = l' i) : solveX P W ia l = solveX P W ia l' := by
  unfold solveX
  have e : ∀ (i : Nat) (s : Nat → K), forUp 0 ia.length (fun j s => set1 s i (s i + P.a (ia.getD j 0) i * l j)) (set1 s i 0) =
      forUp 0 ia.length (fun j s => set1 s i (s i + P.a (ia.getD j 0) i * l' j)) (set1 s i 0) := fun i s =>
    forUp_congr _ _ _ fun j t _ hj => by rw [h j hj]
  simp only [e]

theorem delEq_sim {P : Prob K} {s t : St K} (h : Sim P s t) (hl : ∀ i < s.ia.length, s.lam i = t.lam i) :
    ∀ s', delEq P s = some s' → ∃ t', delEq P t = some t' ∧ Sim P s' t' := by
  obtain ⟨h1, h2, h3⟩ := h
  have e : delLoop P s.lam s.ia.length ⟨0, s.ia, s.nin, false⟩ = delLoop P t.lam t.ia.length ⟨0, t.ia, t.nin, false⟩ := by
    rw [← h2, ← h3]
    unfold delLoop
    exact forUp_congr _ _ _ fun i d _ hi => by rw [hl i hi]
  intro s' es
  unfold delEq at es ⊢
  dsimp only at es ⊢
  rw [e] at es
  split_ifs at es ⊢ with hv
  cases es
  exact ⟨_, rfl, h1, rfl, rfl⟩

theorem cInner_sim {P : Prob K} {W : Pre K} : ∀ (k : Nat) (s t s' : St K), Sim P s t → cInner P W k s = some s' →
    ∃ t', innerLoop P W k t = .ok (some t') ∧ Sim P s' t' ∧ ∀ i < s'.ia.length, s'.lam i = t'.lam i := by
  intro k
  induction k with
  | zero => intro s t s' _ h; cases h
  | succ k ih =>
    intro s t s' hst h
    obtain ⟨h1, h2, h3⟩ := id hst
    unfold cInner at h
    cases hg : gaussSolve P.tol s.ia.length (fun i j => W.aqinvat (s.ia.getD i 0) (s.ia.getD j 0)) (fun i => W.aqinvcb (s.ia.getD i 0)) s.lam with
    | fail => rw [hg] at h; cases h
    | ub => rw [hg] at h; cases h
    | ok lam =>
      rw [hg] at h
      dsimp only at h
      obtain ⟨lam', hg', hl⟩ := gaussSolve_indep P.tol s.ia.length _ _ s.lam t.lam lam hg
      cases hx : solveX P W s.ia lam with
      | fail => rw [hx] at h; cases h
      | ub => rw [hx] at h; cases h
      | ok x =>
        rw [hx] at h
        dsimp only at h
        have hx' : solveX P W s.ia lam' = .ok x := by rw [← solveX_sim P W s.ia lam lam' hl]; exact hx
        have e : solveEq P W t = .ok { t with x := x, lam := lam' } := by
          unfold solveEq solveLam
          rw [← h2, hg']
          show (solveX P W s.ia lam').bind _ = _
          rw [hx']
          rfl
        unfold innerLoop
        rw [e]
        have hsim : Sim P { s with x := x, lam := lam } { t with x := x, lam := lam' } := ⟨h1, h2, h3⟩
        obtain ⟨a1, a2⟩ := addEq_sim hsim rfl
        show ∃ t', (match addEq P { t with x := x, lam := lam' } with | some st => innerLoop P W k st | none => .ok (some { t with x := x, lam := lam' })) = _ ∧ _
        cases ha : addEq P { s with x := x, lam := lam } with
        | none =>
          rw [ha] at h
          cases h
          rw [a1 ha]
          exact ⟨_, rfl, hsim, hl⟩
        | some s1 =>
          rw [ha] at h
          obtain ⟨t1, et, hst1⟩ := a2 s1 ha
          rw [et]
          exact ih s1 t1 s' hst1 h

theorem cTurns_sim {P : Prob K} {W : Pre K} : ∀ (k : Nat) (s t s' : St K), Sim P s t → cTurns P W k s = some s' →
    (∀ f ≤ k, outerLoop P W f t = .ok none) ∧ ∃ t', Sim P s' t' ∧ ∀ f, outerLoop P W (f + k) t = outerLoop P W f t' := by
  intro k
  induction k with
  | zero =>
    intro s t s' hst h
    cases h
    refine ⟨fun f hf => ?_, t, hst, fun f => rfl⟩
    have : f = 0 := by omega
    subst this
    rfl
  | succ k ih =>
    intro s t s' hst h
    unfold cTurns at h
    cases hi : cInner P W (P.m + 1) s with
    | none => rw [hi] at h; cases h
    | some s1 =>
      rw [hi] at h
      dsimp only at h
      obtain ⟨t1, et, hst1, hl⟩ := cInner_sim _ _ _ _ hst hi
      cases hd : delEq P s1 with
      | none => rw [hd] at h; cases h
      | some s2 =>
        rw [hd] at h
        obtain ⟨t2, ed, hst2⟩ := delEq_sim hst1 hl s2 hd
        obtain ⟨g1, t', g2, g3⟩ := ih s2 t2 s' hst2 h
        have step : ∀ f, outerLoop P W (f + 1) t = outerLoop P W f t2 := by
          intro f
          rw [outerLoop, et]
          show (match delEq P t1 with | some st => outerLoop P W f st | none => .ok (some t1)) = _
          rw [ed]
        refine ⟨fun f hf => ?_, t', g2, fun f => ?_⟩
        · cases f with
          | zero => rfl
          | succ f => rw [step]; exact g1 f (by omega)
        · rw [← Nat.add_assoc, step, g3]

/-- A state that comes back is the beginning of an endless loop. -/
theorem endless {P : Prob K} {W : Pre K} {p : Nat} (hp : 0 < p) {s s' : St K} (h : cTurns P W p s = some s') (hs : Sim P s s') :
    ∀ (f : Nat) (t : St K), Sim P s t → outerLoop P W f t = .ok none := by
  intro f
  induction f using Nat.strong_induction_on with
  | _ f ih =>
    intro t ht
    obtain ⟨g1, t', g2, g3⟩ := cTurns_sim p s t s' ht h
    by_cases hf : f ≤ p
    · exact g1 f hf
    · have e : f = (f - p) + p := by omega
      rw [e, g3]
      exact ih (f - p) (by omega) t' ⟨fun j hj => (hs.1 j hj).trans (g2.1 j hj), hs.2.1.trans g2.2.1, hs.2.2.trans g2.2.2⟩

/-- Three variables and four constraints that meet in the origin. -/
def cyc (tst : Tst ℚ) (tol : ℚ) (ins : List Nat → Nat → List Nat) : Prob ℚ where
  n := 3
  m := 4
  q := fun i j => if i = j then 1 else 0
  c := tblV [-2, -1, -1]
  a := tblM [[0, 1, -2], [-1, 1, -2], [0, 0, 2], [2, -1, 1]]
  b := fun _ => 0
  tst := tst
  tol := tol
  sqrt := fun x => x
  ins := ins

/-- Whether the run goes into a loop of the period `p` after `k` turns, starting from the first point. -/
def loops (P : Prob ℚ) (k p : Nat) : Bool :=
  check P &&
  match init P with
  | .ok W =>
    match initBase P with
    | .ok st =>
      match cTurns P W k st with
      | some s =>
        match cTurns P W p s with
        | some s' => ((List.range P.n).map s.xtmp == (List.range P.n).map s'.xtmp) && s.ia == s'.ia && s.nin == s'.nin
        | none => false
      | none => false
    | _ => false
  | _ => false

theorem loops_endless {P : Prob ℚ} {k p : Nat} (hp : 0 < p) (h : loops P k p = true) (fuel : Nat) : zQPSolveASM P fuel = .ok none := by
  unfold loops at h
  rw [Bool.and_eq_true] at h
  obtain ⟨hc, h⟩ := h
  unfold zQPSolveASM
  rw [if_pos hc]
  cases hW : init P with
  | fail => rw [hW] at h; cases h
  | ub => rw [hW] at h; cases h
  | ok W =>
    rw [hW] at h
    dsimp only at h
    show (initBase P).bind _ = _
    cases hb : initBase P with
    | fail => rw [hb] at h; cases h
    | ub => rw [hb] at h; cases h
    | ok st =>
      rw [hb] at h
      dsimp only at h
      show (outerLoop P W fuel st).bind _ = _
      cases h1 : cTurns P W k st with
      | none => rw [h1] at h; cases h
      | some s =>
        rw [h1] at h
        dsimp only at h
        cases h2 : cTurns P W p s with
        | none => rw [h2] at h; cases h
        | some s' =>
          rw [h2] at h
          simp only [Bool.and_eq_true, beq_iff_eq] at h
          obtain ⟨⟨e1, e2⟩, e3⟩ := h
          have hsim : Sim P s s' := ⟨fun j hj => List.map_inj_left.1 e1 j (List.mem_range.2 hj), e2, e3⟩
          obtain ⟨g1, t', g2, g3⟩ := cTurns_sim k st st s ⟨fun _ _ => rfl, rfl, rfl⟩ h1
          have : outerLoop P W fuel st = .ok none := by
            by_cases hf : fuel ≤ k
            · exact g1 fuel hf
            · have e : fuel = (fuel - k) + k := by omega
              rw [e, g3]
              exact endless hp h2 hsim _ t' g2
          rw [this]
          rfl

set_option maxRecDepth 100000 in
/-- C145, `zQPSolveASM` does not end: the constraints are satisfied by the origin, the objective is positive definite, and the loop returns to the same
active set after every second turn; with the tolerances of the code and without, for insertion in ascending order and at the end. -/
theorem zQPSolveASM_endless_violated (fuel : Nat) :
    (∀ ins ∈ [insAsc, insEnd], zQPSolveASM (cyc (Tst.code (1/10^12)) (1/10^12) ins) fuel = .ok none ∧ zQPSolveASM (cyc Tst.exact 0 ins) fuel = .ok none) ∧
      Feasible (cyc Tst.exact 0 insAsc) (fun _ => 0) := by
  constructor
  · intro ins hins
    simp only [List.mem_cons, List.not_mem_nil, or_false] at hins
    rcases hins with rfl | rfl
    · exact ⟨loops_endless (k := 1) (p := 2) (by omega) (by decide +kernel) fuel, loops_endless (k := 1) (p := 2) (by omega) (by decide +kernel) fuel⟩
    · exact ⟨loops_endless (k := 2) (p := 2) (by omega) (by decide +kernel) fuel, loops_endless (k := 2) (p := 2) (by omega) (by decide +kernel) fuel⟩
  · intro i _
    simp [cyc, Ax]

end Zm.QPASM
