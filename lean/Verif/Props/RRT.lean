import Mathlib.Tactic.Linarith
import Mathlib.Tactic.FieldSimp
import Mathlib.Tactic.NormNum
import Mathlib.Tactic.Module
import Mathlib.Algebra.Order.Ring.Rat
import Mathlib.Algebra.Field.Rat
import Mathlib.Data.Rat.Floor
import Mathlib.Analysis.Real.Sqrt
import Verif.Model.RRT
import Verif.Props.Container

set_option linter.unusedSectionVars false

/-!
# Rapidly exploring random trees: properties C64, C65
-/

namespace Zm.RRT

variable {P K : Type*} [Field K] [LinearOrder K] [IsStrictOrderedRing K]

/-! ## Specification -/

/-- The length of a path. -/
def pathLen (dist : P → P → K) : List P → K
  | [] => 0
  | [_] => 0
  | a :: b :: l => dist a b + pathLen dist (b :: l)

/-- Following the parents from a node leads to a node without a parent. -/
inductive Reach (t : Tree P K) : Nat → Prop
  | root (i : Nat) : (t.nd i).parent = none → Reach t i
  | step (i p : Nat) : (t.nd i).parent = some p → Reach t p → Reach t i

/-- What a user expects of a tree that grows from `start` with edges that satisfy `E`. -/
structure Good (env : Env P K) (E : P → P → Prop) (start : P) (t : Tree P K) : Prop where
  pos : 0 < t.size
  root : (t.nd 0).parent = none ∧ (t.nd 0).v = start ∧ (t.nd 0).edge = 0
  par : ∀ i, 0 < i → i < t.size → ∃ p < t.size, (t.nd i).parent = some p ∧ E (t.nd p).v (t.nd i).v ∧ (t.nd i).edge = env.dist (t.nd p).v (t.nd i).v
  free : ∀ i, 0 < i → i < t.size → env.coll (t.nd i).v = false
  reach : ∀ i < t.size, Reach t i
  mono : ∀ i p, i < t.size → (t.nd i).parent = some p → (t.nd p).total + (t.nd i).edge ≤ (t.nd i).total

/-- The distance and the extension of the user fit together: the distance is symmetric and not negative, and the point at the fraction `s` of the way
from `a` to `b` has the corresponding distances from both. -/
structure Metric (env : Env P K) : Prop where
  symm : ∀ a b, env.dist a b = env.dist b a
  nonneg : ∀ a b, 0 ≤ env.dist a b
  self : ∀ a, env.dist a a = 0
  step : ∀ a b s, 0 ≤ s → s ≤ 1 → env.dist a (env.ext a b s) = s * env.dist a b
  rest : ∀ a b s, 0 ≤ s → s ≤ 1 → env.dist b (env.ext a b s) = (1 - s) * env.dist a b
  eps : 0 < env.eps
  tol : 0 ≤ env.tol

/-! ## The nearest node -/

theorem nn_spec (env : Env P K) (t : Tree P K) (vr : P) (h : 0 < t.size) :
    ∃ i < t.size, nn env t vr = some (env.dist vr (t.nd i).v, i) ∧ ∀ j < t.size, env.dist vr (t.nd i).v ≤ env.dist vr (t.nd j).v := by
  have := forUp_inv (nnStep env t vr) none (P := fun k b => (k = 0 ∧ b = none) ∨ ∃ i < k, b = some (env.dist vr (t.nd i).v, i) ∧
    ∀ j < k, env.dist vr (t.nd i).v ≤ env.dist vr (t.nd j).v) (Nat.zero_le t.size) (Or.inl ⟨rfl, rfl⟩) (by
      rintro k b - hk hb
      right
      rcases hb with ⟨rfl, rfl⟩ | ⟨i, hi, rfl, hmin⟩
      · exact ⟨0, by omega, rfl, fun j hj => by rw [show j = 0 by omega]⟩
      · simp only [nnStep]
        split_ifs with hlt
        · refine ⟨k, by omega, rfl, fun j hj => ?_⟩
          by_cases hjk : j = k
          · rw [hjk]
          · exact hlt.le.trans (hmin j (by omega))
        · refine ⟨i, by omega, rfl, fun j hj => ?_⟩
          by_cases hjk : j = k
          · rw [hjk]; exact not_lt.1 hlt
          · exact hmin j (by omega))
  rcases this with ⟨h0, -⟩ | this
  · omega
  · exact this

/-! ## Growing -/

theorem init_good (env : Env P K) (E : P → P → Prop) (start : P) : Good env E start (init start : Tree P K) :=
  ⟨Nat.one_pos, ⟨rfl, rfl, rfl⟩, by intro i h1 h2; change i < 1 at h2; omega, by intro i h1 h2; change i < 1 at h2; omega,
    fun i _ => .root i rfl, by intro i p _ h; cases h⟩

theorem addNode_old (t : Tree P K) (v : P) (c : K) (p : Option Nat) {i : Nat} (h : i < t.size) : (addNode t v c p).nd i = t.nd i :=
  set1_ne _ _ (Nat.ne_of_lt h)

theorem addNode_new (t : Tree P K) (v : P) (c : K) (i : Nat) :
    (addNode t v c (some i)).nd t.size = { v := v, edge := c, total := (t.nd i).total + c, parent := some i } :=
  set1_same _ _ _

theorem addNode_reach {env : Env P K} {E : P → P → Prop} {start : P} {t : Tree P K} (h : Good env E start t) (v : P) (c : K) (p : Option Nat)
    {i : Nat} (hi : i < t.size) : Reach (addNode t v c p) i := by
  have key : ∀ j, Reach t j → j < t.size → Reach (addNode t v c p) j := by
    intro j hj
    induction hj with
    | root j hj => intro hlt; exact .root j (by rw [addNode_old _ _ _ _ hlt]; exact hj)
    | step j q hj _ ih =>
      intro hlt
      have hq : q < t.size := by
        by_cases h0 : j = 0
        · rw [h0, h.root.1] at hj; cases hj
        · obtain ⟨q', hq', e, -⟩ := h.par j (by omega) hlt
          rw [e] at hj
          cases hj
          exact hq'
      exact .step j q (by rw [addNode_old _ _ _ _ hlt]; exact hj) (ih hq)
  exact key i (h.reach i hi) hi

theorem addNode_good {env : Env P K} {E : P → P → Prop} {start : P} {t : Tree P K} (h : Good env E start t) {v : P} {c : K} {i : Nat}
    (hi : i < t.size) (hE : E (t.nd i).v v) (hc : c = env.dist (t.nd i).v v) (hfree : env.coll v = false) :
    Good env E start (addNode t v c (some i)) := by
  have hpar : ∀ j p, j < t.size → (t.nd j).parent = some p → p < t.size := by
    intro j p hj hp
    by_cases h0 : j = 0
    · rw [h0, h.root.1] at hp; cases hp
    · obtain ⟨q', hq', e, -⟩ := h.par j (by omega) hj
      rw [e] at hp; cases hp; exact hq'
  refine ⟨Nat.succ_pos _, ?_, ?_, ?_, ?_, ?_⟩
  · rw [addNode_old _ _ _ _ h.pos]; exact h.root
  · intro j h0 hj
    have hj' : j < t.size ∨ j = t.size := by change j < t.size + 1 at hj; omega
    rcases hj' with hj' | rfl
    · obtain ⟨p, hp, e⟩ := h.par j h0 hj'
      refine ⟨p, ?_, ?_⟩
      · show p < t.size + 1; omega
      · rw [addNode_old _ _ _ _ hj', addNode_old _ _ _ _ hp]; exact e
    · refine ⟨i, ?_, ?_⟩
      · show i < t.size + 1; omega
      · rw [addNode_new, addNode_old _ _ _ _ hi]; exact ⟨rfl, hE, hc⟩
  · intro j h0 hj
    have hj' : j < t.size ∨ j = t.size := by change j < t.size + 1 at hj; omega
    rcases hj' with hj' | rfl
    · rw [addNode_old _ _ _ _ hj']; exact h.free j h0 hj'
    · rw [addNode_new]; exact hfree
  · intro j hj
    have hj' : j < t.size ∨ j = t.size := by change j < t.size + 1 at hj; omega
    rcases hj' with hj' | rfl
    · exact addNode_reach h v c _ hj'
    · exact .step _ i (by rw [addNode_new]) (addNode_reach h v c _ hi)
  · intro j p hj hp
    have hj' : j < t.size ∨ j = t.size := by change j < t.size + 1 at hj; omega
    rcases hj' with hj' | rfl
    · rw [addNode_old _ _ _ _ hj'] at hp ⊢
      rw [addNode_old _ _ _ _ (hpar j p hj' hp)]
      exact h.mono j p hj' hp
    · rw [addNode_new] at hp ⊢
      cases hp
      rw [addNode_old _ _ _ _ hi]

/-- What is tested: a point that is not trapped is free, and its cost is its distance from the node it is reached from, at most the step length. -/
theorem extendTest_spec {env : Env P K} (hm : Metric env) {a vr : P} {d : K} (hd : d = env.dist vr a) (hbig : ¬ |d| ≤ env.tol)
    (hret : (extendTest env a vr d).2.2 ≠ .trapped) :
    env.coll (extendTest env a vr d).1 = false ∧ (extendTest env a vr d).2.1 = env.dist a (extendTest env a vr d).1 ∧
      env.dist a (extendTest env a vr d).1 ≤ env.eps ∧
      ((extendTest env a vr d).2.2 = .reached ∧ (extendTest env a vr d).1 = vr ∨
        (extendTest env a vr d).2.2 = .advanced ∧ env.dist vr (extendTest env a vr d).1 = d - env.eps) := by
  have hd0 : 0 < d := by
    have h1 : 0 ≤ d := hd ▸ hm.nonneg vr a
    rcases h1.lt_or_eq with h | h
    · exact h
    · exact absurd (by rw [← h, abs_zero]; exact hm.tol) hbig
  have hda : d = env.dist a vr := by rw [hd, hm.symm]
  unfold extendTest at hret ⊢
  dsimp only at hret ⊢
  by_cases h1 : d < env.eps
  · rw [if_pos h1] at hret ⊢
    dsimp only at hret ⊢
    by_cases h2 : env.coll vr = true
    · rw [if_pos h2] at hret; exact absurd rfl hret
    · rw [if_neg h2]
      exact ⟨by simpa using h2, hda, hda ▸ h1.le, Or.inl ⟨rfl, rfl⟩⟩
  · rw [if_neg h1] at hret ⊢
    dsimp only at hret ⊢
    by_cases h3 : env.coll (env.ext a vr (env.eps / d)) = true
    · rw [if_pos h3] at hret; exact absurd rfl hret
    push Not at h1
    have hs0 : 0 ≤ env.eps / d := div_nonneg hm.eps.le hd0.le
    have hs1 : env.eps / d ≤ 1 := (div_le_one hd0).2 h1
    have hst : env.dist a (env.ext a vr (env.eps / d)) = env.eps := by
      rw [hm.step a vr _ hs0 hs1, ← hda, div_mul_cancel₀ _ hd0.ne']
    refine ⟨by simpa using h3, hst.symm, hst.le, Or.inr ⟨?_, ?_⟩⟩
    · rw [if_neg h3]
    · rw [hm.rest a vr _ hs0 hs1, ← hda, sub_mul, one_mul, div_mul_cancel₀ _ hd0.ne']

/-- Edges of the plain algorithm. -/
def Short (env : Env P K) (a b : P) : Prop := env.dist a b ≤ env.eps

/-- One extension keeps the tree good; the new point is the head. -/
theorem extend_good {env : Env P K} (hm : Metric env) {start : P} {t : Tree P K} (h : Good env (Short env) start t) (vr : P) :
    ∃ t' r, extend env t vr = .ok (t', r) ∧ Good env (Short env) start t' ∧ (r = .reached → t'.head.v = vr) := by
  obtain ⟨i, hi, e, hmin⟩ := nn_spec env t vr h.pos
  unfold extend
  rw [e]
  dsimp only
  by_cases h1 : |env.dist vr (t.nd i).v| ≤ env.tol
  · rw [if_pos h1]; exact ⟨_, _, rfl, h, by simp⟩
  · rw [if_neg h1]
    by_cases h2 : (extendTest env (t.nd i).v vr (env.dist vr (t.nd i).v)).2.2 = .trapped
    · rw [if_pos h2]; exact ⟨_, _, rfl, h, by simp⟩
    · rw [if_neg h2]
      obtain ⟨g1, g2, g3, g4⟩ := extendTest_spec hm rfl h1 h2
      refine ⟨_, _, rfl, addNode_good h hi g3 g2 g1, ?_⟩
      intro hr
      rcases g4 with ⟨-, g4⟩ | ⟨g4, -⟩
      · show (set1 t.nd t.size _ (t.size + 1 - 1)).v = vr
        rw [Nat.add_sub_cancel, set1_same]
        exact g4
      · rw [g4] at hr; cases hr

/-- C64 for the plain tree: whatever the random points are, after any number of extensions the tree is good. -/
theorem extend_history {env : Env P K} (hm : Metric env) (start : P) (rnd : List P) :
    ∃ t, rnd.foldlM (fun t vr => (extend env t vr).bind fun r => .ok r.1) (init start : Tree P K) = .ok t ∧ Good env (Short env) start t := by
  suffices H : ∀ t : Tree P K, Good env (Short env) start t →
      ∃ t', rnd.foldlM (fun t vr => (extend env t vr).bind fun r => .ok r.1) t = .ok t' ∧ Good env (Short env) start t' from
    H _ (init_good env _ start)
  induction rnd with
  | nil => intro t h; exact ⟨t, rfl, h⟩
  | cons v l ih =>
    intro t h
    obtain ⟨t1, r, e, h1, -⟩ := extend_good hm h v
    obtain ⟨t2, e2, h2⟩ := ih t1 h1
    refine ⟨t2, ?_, h2⟩
    rw [List.foldlM_cons, e]
    exact e2

/-! ## Paths -/

theorem pathLen_append (dist : P → P → K) (l : List P) (a b : P) (hl : l.getLast? = some a) : pathLen dist (l ++ [b]) = pathLen dist l + dist a b := by
  induction l with
  | nil => simp at hl
  | cons x l ih =>
    cases l with
    | nil =>
      simp only [List.getLast?_singleton, Option.some.injEq] at hl
      subst hl
      simp [pathLen]
    | cons y l =>
      rw [List.getLast?_cons_cons] at hl
      have := ih hl
      rw [List.cons_append] at this ⊢
      rw [List.cons_append]
      show dist x y + pathLen dist (y :: (l ++ [b])) = dist x y + pathLen dist (y :: l) + dist a b
      rw [this]; ring

/-- What a user expects of a path from `a` to `b` along edges that satisfy `E`, with its length, free after its first point. -/
structure IsPath (env : Env P K) (E : P → P → Prop) (a b : P) (l : List P) (c : K) : Prop where
  first : l.head? = some a
  last : l.getLast? = some b
  edges : l.IsChain E
  free : ∀ x ∈ l.tail, env.coll x = false
  len : c = pathLen env.dist l

theorem path_spec {env : Env P K} {E : P → P → Prop} {start : P} {t : Tree P K} (h : Good env E start t) {i : Nat} (hi : i < t.size) :
    ∃ N, ∃ l c, (∀ fuel ≥ N, path t fuel i = .ok (l, c)) ∧ IsPath env E start (t.nd i).v l c := by
  have key : ∀ i, Reach t i → i < t.size → ∃ N, ∃ l c, (∀ fuel ≥ N, path t fuel i = .ok (l, c)) ∧ IsPath env E start (t.nd i).v l c := by
    intro i hr
    induction hr with
    | root i hp =>
      intro hlt
      have h0 : i = 0 := by
        by_contra h0
        obtain ⟨p, -, e, -⟩ := h.par i (by omega) hlt
        rw [e] at hp; cases hp
      subst h0
      refine ⟨1, [(t.nd 0).v], 0, ?_, ?_⟩
      · intro fuel hf
        obtain ⟨k, rfl⟩ : ∃ k, fuel = k + 1 := ⟨fuel - 1, by omega⟩
        simp only [path, hp, h.root.2.2]
      · exact ⟨by rw [h.root.2.1]; rfl, rfl, List.isChain_singleton _, by simp, rfl⟩
    | step i p hp _ ih =>
      intro hlt
      have h0 : i ≠ 0 := by rintro rfl; rw [h.root.1] at hp; cases hp
      obtain ⟨q, hq, e, hE, hc⟩ := h.par i (by omega) hlt
      rw [e] at hp
      cases hp
      obtain ⟨N, l, c, e1, hpth⟩ := ih hq
      refine ⟨N + 1, l ++ [(t.nd i).v], (t.nd i).edge + c, ?_, ?_⟩
      · intro fuel hf
        obtain ⟨k, rfl⟩ : ∃ k, fuel = k + 1 := ⟨fuel - 1, by omega⟩
        simp only [path, e]
        rw [e1 k (by omega)]
      · have hne : l ≠ [] := by rintro rfl; have := hpth.first; simp at this
        refine ⟨?_, ?_, ?_, ?_, ?_⟩
        · rw [List.head?_append_of_ne_nil _ hne]; exact hpth.first
        · simp
        · refine List.IsChain.append hpth.edges (List.isChain_singleton _) ?_
          intro x hx y hy
          rw [hpth.last, Option.mem_def, Option.some.injEq] at hx
          simp only [List.head?_cons, Option.mem_def, Option.some.injEq] at hy
          rw [← hx, ← hy]; exact hE
        · intro x hx
          rw [List.tail_append_of_ne_nil hne] at hx
          rcases List.mem_append.1 hx with hx | hx
          · exact hpth.free x hx
          · rw [List.mem_singleton.1 hx]; exact h.free i (by omega) hlt
        · rw [pathLen_append _ _ _ _ hpth.last, hc, hpth.len]; ring
  exact key i (h.reach i hi) hi

/-- The loop of the planners keeps the tree good, and ends successfully at a goal only. -/
theorem findLoop_spec {env : Env P K} {E : P → P → Prop} {start : P} {extf : Tree P K → P → Res (Tree P K × Ret)}
    (hext : ∀ t vr, Good env E start t → ∃ t' r, extf t vr = .ok (t', r) ∧ Good env E start t') (goal : P → Bool) (rnd : Nat → P) (k i : Nat)
    {t : Tree P K} (h : Good env E start t) :
    ∃ t' b, findLoop extf goal rnd k i t = .ok (t', b) ∧ Good env E start t' ∧ (b = true → goal t'.head.v = true) := by
  induction k generalizing i t with
  | zero => exact ⟨t, false, rfl, h, by simp⟩
  | succ k ih =>
    obtain ⟨t1, r, e, h1⟩ := hext t (rnd i) h
    unfold findLoop
    rw [e]
    have rest : ∃ t' b, (if goal t1.head.v = true then Res.ok (t1, true) else findLoop extf goal rnd k (i+1) t1) = .ok (t', b) ∧ Good env E start t' ∧
        (b = true → goal t'.head.v = true) := by
      by_cases hg : goal t1.head.v = true
      · rw [if_pos hg]; exact ⟨_, _, rfl, h1, fun _ => hg⟩
      · rw [if_neg hg]; exact ih (i+1) h1
    cases r with
    | trapped => exact ih (i+1) h1
    | nop => exact rest
    | advanced => exact rest
    | reached => exact rest

theorem findPath_spec {env : Env P K} {E : P → P → Prop} {start : P} {extf : Tree P K → P → Res (Tree P K × Ret)}
    (hext : ∀ t vr, Good env E start t → ∃ t' r, extf t vr = .ok (t', r) ∧ Good env E start t') (goal : P → Bool) (rnd : Nat → P) (iter : Int) :
    ∃ N, ∃ ret l c b, (∀ fuel ≥ N, findPath extf goal rnd fuel start iter true = .ok (ret, some (l, c))) ∧ IsPath env E start b l c ∧
      (ret = true → goal b = true) := by
  obtain ⟨t, ret, e, h, hg⟩ := findLoop_spec hext goal rnd (OneD.iterInit iter) 0 (init_good env E start)
  obtain ⟨N, l, c, e1, hp⟩ := path_spec h (i := t.size - 1) (by have := h.pos; omega)
  refine ⟨N, ret, l, c, _, ?_, hp, hg⟩
  intro fuel hf
  unfold findPath finish
  rw [e]
  dsimp only
  rw [if_pos rfl, e1 fuel hf]

/-- C64: the planner ends, and the path it reports begins at the start, follows edges not longer than the step length, meets no collision after the
start, has the reported length, and ends at a goal when success is reported.  (When the caller passes a pointer for the cost.) -/
theorem zRRTFindPath_spec {env : Env P K} (hm : Metric env) (rnd : Nat → P) (start : P) (iter : Int) :
    ∃ N, ∃ ret l c b, (∀ fuel ≥ N, zRRTFindPath env rnd fuel start iter true = .ok (ret, some (l, c))) ∧ IsPath env (Short env) start b l c ∧
      (ret = true → env.goal b = true) :=
  findPath_spec (fun t vr h => by obtain ⟨t', r, e, h', -⟩ := extend_good hm h vr; exact ⟨t', r, e, h'⟩) env.goal rnd iter

/-- C64 is violated when no cost is asked for: success is reported, but no path is stored. -/
theorem zRRTFindPath_nocost_violated (env : Env P K) (rnd : Nat → P) (fuel : Nat) (start : P) (iter : Int) (ret : Bool) (r : Option (List P × K))
    (h : zRRTFindPath env rnd fuel start iter false = .ok (ret, r)) : r = none := by
  unfold zRRTFindPath findPath at h
  cases e : findLoop (extend env) env.goal rnd (OneD.iterInit iter) 0 (init start) with
  | fail => rw [e] at h; simp at h
  | ub => rw [e] at h; simp at h
  | ok x =>
    rw [e] at h
    simp only [finish, Bool.false_eq_true, if_false, Res.ok.injEq, Prod.mk.injEq] at h
    exact h.2.symm

/-! ## Rewiring -/

section Opt
variable [FloorSemiring K]

/-- The points between `a` and `b` that are tested when `b` becomes a neighbour of `a`: at equal distances less than the step length. -/
def Sampled (env : Env P K) (a b : P) : Prop :=
  ∃ n : Nat, 0 < n ∧ env.dist a b / n < env.eps ∧ ∀ i, 0 < i → i < n → env.coll (env.ext a b ((i : K) / (n : K))) = false

/-- Edges of the variant: short, or sampled from one of their ends. -/
def Checked (env : Env P K) (a b : P) : Prop := Short env a b ∨ Sampled env a b ∨ Sampled env b a

theorem rewirable_spec {env : Env P K} (hm : Metric env) {a b : P} {d : K} (hd : d = env.dist a b) (h : rewirable env a b d = true) : Sampled env a b := by
  have h0 : 0 ≤ d / env.eps := div_nonneg (hd ▸ hm.nonneg a b) hm.eps.le
  have hlt : d / env.eps < (⌊d / env.eps + 1⌋₊ : K) := by
    have := Nat.lt_floor_add_one (d / env.eps)
    rw [Nat.floor_add_one h0]
    push_cast
    exact this
  have hn : 0 < ⌊d / env.eps + 1⌋₊ := by
    have : (0:K) < (⌊d / env.eps + 1⌋₊ : K) := lt_of_le_of_lt h0 hlt
    exact_mod_cast this
  refine ⟨⌊d / env.eps + 1⌋₊, hn, ?_, ?_⟩
  · rw [← hd]
    have hn' : (0:K) < (⌊d / env.eps + 1⌋₊ : K) := by exact_mod_cast hn
    rw [div_lt_iff₀ hn']
    rw [div_lt_iff₀ hm.eps] at hlt
    linarith
  · intro i hi0 hi
    unfold rewirable at h
    dsimp only at h
    rw [List.all_eq_true] at h
    have := h i (List.mem_range.2 hi)
    simp only [Bool.or_eq_true, decide_eq_true_eq, Bool.not_eq_true'] at this
    rcases this with h1 | h1
    · omega
    · exact h1

theorem nearList_spec (env : Env P K) (t : Tree P K) (ve : P) (r : K) (e : Nat × K) (h : e ∈ nearList env t ve r) :
    e.1 < t.size ∧ e.2 = env.dist (t.nd e.1).v ve ∧ e.2 < r ∧ rewirable env ve (t.nd e.1).v e.2 = true := by
  unfold nearList at h
  rw [List.mem_filterMap] at h
  obtain ⟨i, hi, h⟩ := h
  dsimp only at h
  split_ifs at h with hc
  simp only [Option.some.injEq] at h
  subst h
  exact ⟨List.mem_range.1 hi, rfl, hc.1, hc.2⟩

theorem minNear_spec (t : Tree P K) (l : List (Nat × K)) (best : Option (Nat × K)) :
    (∀ m, minNear t l best = some m → (m ∈ l ∨ best = some m) ∧ (∀ e ∈ l, (t.nd m.1).total + m.2 ≤ (t.nd e.1).total + e.2) ∧
      ∀ b, best = some b → (t.nd m.1).total + m.2 ≤ (t.nd b.1).total + b.2) ∧ (minNear t l best = none → l = [] ∧ best = none) := by
  induction l generalizing best with
  | nil =>
    constructor
    · intro m hm
      have hm : best = some m := hm
      exact ⟨Or.inr hm, by simp, by intro b hb; rw [hm] at hb; cases hb; exact le_rfl⟩
    · intro h; exact ⟨rfl, h⟩
  | cons e l ih =>
    cases best with
    | none =>
      obtain ⟨h1, h2⟩ := ih (some e)
      constructor
      · intro m hm
        obtain ⟨a, b, c⟩ := h1 m hm
        refine ⟨Or.inl ?_, ?_, by simp⟩
        · rcases a with a | a
          · exact List.mem_cons_of_mem _ a
          · simp only [Option.some.injEq] at a; rw [a]; exact List.mem_cons_self
        · intro x hx
          rcases List.mem_cons.1 hx with rfl | hx
          · exact c _ rfl
          · exact b x hx
      · intro h; have := (h2 h).2; simp at this
    | some b0 =>
      obtain ⟨h1, h2⟩ := ih (if (t.nd e.1).total + e.2 < (t.nd b0.1).total + b0.2 then some e else some b0)
      constructor
      · intro m hm
        obtain ⟨a, b, c⟩ := h1 m hm
        split_ifs at a c with hlt
        · refine ⟨Or.inl ?_, ?_, ?_⟩
          · rcases a with a | a
            · exact List.mem_cons_of_mem _ a
            · simp only [Option.some.injEq] at a; rw [a]; exact List.mem_cons_self
          · intro x hx
            rcases List.mem_cons.1 hx with rfl | hx
            · exact c _ rfl
            · exact b x hx
          · intro b' hb'
            cases hb'
            exact (c _ rfl).trans hlt.le
        · refine ⟨?_, ?_, ?_⟩
          · rcases a with a | a
            · exact Or.inl (List.mem_cons_of_mem _ a)
            · exact Or.inr a
          · intro x hx
            rcases List.mem_cons.1 hx with rfl | hx
            · exact (c _ rfl).trans (not_lt.1 hlt)
            · exact b x hx
          · intro b' hb'
            cases hb'
            exact c _ rfl
      · intro h
        have := (h2 h).2
        split_ifs at this

/-- Making the head the parent of a node with a greater total cost gives a good tree again: no cycle arises, although the total costs below the node
are not updated. -/
theorem rewire1_good {env : Env P K} (hm : Metric env) {E : P → P → Prop} {start : P} {t : Tree P K} (h : Good env E start t) {e : Nat × K}
    (he : e.1 < t.size) (hd : e.2 = env.dist t.head.v (t.nd e.1).v) (hE : E t.head.v (t.nd e.1).v) (h0 : 0 ≤ (t.nd 0).total ∧ (t.nd 0).total ≤ t.head.total) :
    Good env E start (rewire1 t e) ∧ (rewire1 t e).size = t.size ∧ (rewire1 t e).head = t.head ∧ (∀ i, ((rewire1 t e).nd i).v = (t.nd i).v) ∧
      (rewire1 t e).nd 0 = t.nd 0 := by
  unfold rewire1
  dsimp only
  by_cases hc : (t.nd (t.size - 1)).total + e.2 < (t.nd e.1).total
  swap
  · rw [if_neg hc]; exact ⟨h, rfl, rfl, fun _ => rfl, rfl⟩
  rw [if_pos hc]
  have hpos := h.pos
  have hhd : t.head = t.nd (t.size - 1) := rfl
  have hd0 : 0 ≤ e.2 := hd ▸ hm.nonneg _ _
  have hlt : t.head.total < (t.nd e.1).total := by rw [hhd]; linarith
  have hne0 : e.1 ≠ 0 := by
    intro e0
    rw [e0] at hlt
    exact absurd hlt (not_lt.2 h0.2)
  have hneh : e.1 ≠ t.size - 1 := by
    intro e0
    rw [e0, ← hhd] at hlt
    exact lt_irrefl _ hlt
  obtain ⟨nd', hnd'⟩ : ∃ nd', nd' = set1 t.nd e.1 { v := (t.nd e.1).v, edge := e.2, total := (t.nd (t.size - 1)).total + e.2, parent := some (t.size - 1) } := ⟨_, rfl⟩
  rw [← hnd']
  have hold : ∀ i, i ≠ e.1 → nd' i = t.nd i := fun i hi => by rw [hnd']; exact set1_ne _ _ hi
  have hnew : nd' e.1 = { v := (t.nd e.1).v, edge := e.2, total := (t.nd (t.size - 1)).total + e.2, parent := some (t.size - 1) } := by
    rw [hnd']; exact set1_same _ _ _
  have hv : ∀ i, (nd' i).v = (t.nd i).v := by
    intro i
    by_cases hi : i = e.1
    · rw [hi, hnew]
    · rw [hold i hi]
  have hpar : ∀ j p, j < t.size → (t.nd j).parent = some p → p < t.size ∧ 0 ≤ (t.nd j).edge := by
    intro j p hj hp
    by_cases h0 : j = 0
    · rw [h0, h.root.1] at hp; cases hp
    · obtain ⟨q', hq', e1, -, e2⟩ := h.par j (by omega) hj
      rw [e1] at hp; cases hp
      exact ⟨hq', e2 ▸ hm.nonneg _ _⟩
  have hlow : ∀ j, Reach t j → j < t.size → (t.nd j).total < (t.nd e.1).total → Reach { t with nd := nd' } j := by
    intro j hj
    induction hj with
    | root j hp =>
      intro _ hl
      have : j ≠ e.1 := by rintro rfl; exact lt_irrefl _ hl
      exact .root j (by show (nd' j).parent = none; rw [hold j this]; exact hp)
    | step j p hp _ ih =>
      intro hjs hl
      have hj' : j ≠ e.1 := by rintro rfl; exact lt_irrefl _ hl
      obtain ⟨q1, q2⟩ := hpar j p hjs hp
      have := h.mono j p hjs hp
      exact .step j p (by show (nd' j).parent = some p; rw [hold j hj']; exact hp) (ih q1 (by linarith))
  have hreach : ∀ j, Reach t j → j < t.size → Reach { t with nd := nd' } j := by
    intro j hj
    induction hj with
    | root j hp =>
      intro hjs
      by_cases hje : j = e.1
      · subst hje
        exact .step _ (t.size - 1) (by show (nd' e.1).parent = _; rw [hnew]) (hlow _ (h.reach _ (by omega)) (by omega) (by rw [← hhd]; exact hlt))
      · exact .root j (by show (nd' j).parent = none; rw [hold j hje]; exact hp)
    | step j p hp _ ih =>
      intro hjs
      by_cases hje : j = e.1
      · subst hje
        exact .step _ (t.size - 1) (by show (nd' e.1).parent = _; rw [hnew]) (hlow _ (h.reach _ (by omega)) (by omega) (by rw [← hhd]; exact hlt))
      · exact .step j p (by show (nd' j).parent = some p; rw [hold j hje]; exact hp) (ih (hpar j p hjs hp).1)
  refine ⟨⟨hpos, ?_, ?_, ?_, fun i hi => hreach i (h.reach i hi) hi, ?_⟩, rfl, ?_, hv, hold 0 (Ne.symm hne0)⟩
  · show (nd' 0).parent = none ∧ (nd' 0).v = start ∧ (nd' 0).edge = 0
    rw [hold 0 (Ne.symm hne0)]; exact h.root
  · intro i hi0 hi
    show ∃ p < t.size, (nd' i).parent = some p ∧ E (nd' p).v (nd' i).v ∧ (nd' i).edge = env.dist (nd' p).v (nd' i).v
    by_cases hie : i = e.1
    · subst hie
      refine ⟨t.size - 1, by omega, by rw [hnew], ?_, ?_⟩
      · rw [hv, hv]; exact hE
      · rw [hv, hv, hnew]; exact hd
    · obtain ⟨p, hp, e1, e2, e3⟩ := h.par i hi0 hi
      refine ⟨p, hp, by rw [hold i hie]; exact e1, by rw [hv, hv]; exact e2, by rw [hv, hv, hold i hie]; exact e3⟩
  · intro i hi0 hi
    show env.coll (nd' i).v = false
    rw [hv]; exact h.free i hi0 hi
  · intro i p hi hp
    change (nd' i).parent = some p at hp
    show (nd' p).total + (nd' i).edge ≤ (nd' i).total
    have hle : ∀ p, (nd' p).total ≤ (t.nd p).total := by
      intro p
      by_cases hpe : p = e.1
      · rw [hpe, hnew]; exact hc.le
      · rw [hold p hpe]
    by_cases hie : i = e.1
    · subst hie
      rw [hnew] at hp ⊢
      cases hp
      have := hle (t.size - 1)
      dsimp only
      linarith
    · rw [hold i hie] at hp ⊢
      have := h.mono i p hi hp
      have := hle p
      linarith
  · show nd' (t.size - 1) = _
    rw [hold _ (Ne.symm hneh)]; rfl

/-- Total costs do not decrease from the root on. -/
theorem root_total {env : Env P K} (hm : Metric env) {E : P → P → Prop} {start : P} {t : Tree P K} (h : Good env E start t) {i : Nat} (hi : i < t.size) :
    (t.nd 0).total ≤ (t.nd i).total := by
  have key : ∀ i, Reach t i → i < t.size → (t.nd 0).total ≤ (t.nd i).total := by
    intro i hr
    induction hr with
    | root i hp =>
      intro hlt
      by_cases h0 : i = 0
      · rw [h0]
      · obtain ⟨p, -, e, -⟩ := h.par i (by omega) hlt
        rw [e] at hp; cases hp
    | step i p hp _ ih =>
      intro hlt
      have h0 : i ≠ 0 := by rintro rfl; rw [h.root.1] at hp; cases hp
      obtain ⟨q, hq, e, -, hc⟩ := h.par i (by omega) hlt
      have hmo := h.mono i p hlt hp
      rw [e] at hp
      cases hp
      have := hm.nonneg (t.nd p).v (t.nd i).v
      rw [← hc] at this
      have := ih hq
      linarith
  exact key i (h.reach i hi) hi

theorem rewireAll_good {env : Env P K} (hm : Metric env) {E : P → P → Prop} {start : P} (l : List (Nat × K)) {t : Tree P K} (h : Good env E start t)
    (h0 : 0 ≤ (t.nd 0).total)
    (hl : ∀ e ∈ l, e.1 < t.size ∧ e.2 = env.dist t.head.v (t.nd e.1).v ∧ E t.head.v (t.nd e.1).v) :
    Good env E start (l.foldl rewire1 t) ∧ (l.foldl rewire1 t).size = t.size ∧ (l.foldl rewire1 t).head.v = t.head.v ∧ 0 ≤ ((l.foldl rewire1 t).nd 0).total := by
  induction l generalizing t with
  | nil => exact ⟨h, rfl, rfl, h0⟩
  | cons e l ih =>
    obtain ⟨a1, a2, a3⟩ := hl e List.mem_cons_self
    have hr : (t.nd 0).total ≤ t.head.total := root_total hm h (by have := h.pos; omega)
    obtain ⟨b1, b2, b3, b4, b5⟩ := rewire1_good hm h a1 a2 a3 ⟨h0, hr⟩
    rw [List.foldl_cons]
    obtain ⟨c1, c2, c3, c4⟩ := ih b1 (by rw [b5]; exact h0) (by
      intro e' he'
      obtain ⟨d1, d2, d3⟩ := hl e' (List.mem_cons_of_mem _ he')
      rw [b2, b3, b4]
      exact ⟨d1, d2, d3⟩)
    exact ⟨c1, by rw [c2, b2], by rw [c3, b3], c4⟩

/-- One extension of the variant keeps the tree good. -/
theorem extendOpt_good {env : Env P K} (hm : Metric env) (radius : Nat → K) {start : P} {t : Tree P K} (h : Good env (Checked env) start t)
    (h0 : 0 ≤ (t.nd 0).total) (vr : P) :
    ∃ t' r, extendOpt env radius t vr = .ok (t', r) ∧ Good env (Checked env) start t' ∧ 0 ≤ (t'.nd 0).total := by
  obtain ⟨i, hi, e, hmin⟩ := nn_spec env t vr h.pos
  unfold extendOpt
  rw [e]
  dsimp only
  by_cases h1 : |env.dist vr (t.nd i).v| ≤ env.tol
  · rw [if_pos h1]; exact ⟨_, _, rfl, h, h0⟩
  · rw [if_neg h1]
    by_cases h2 : (extendTest env (t.nd i).v vr (env.dist vr (t.nd i).v)).2.2 = .trapped
    · rw [if_pos h2]; exact ⟨_, _, rfl, h, h0⟩
    · rw [if_neg h2]
      obtain ⟨g1, g2, g3, g4⟩ := extendTest_spec hm rfl h1 h2
      generalize extendTest env (t.nd i).v vr (env.dist vr (t.nd i).v) = ex at g1 g2 g3 g4 h2
      refine ⟨_, _, rfl, ?_⟩
      unfold addAndRewire
      dsimp only
      cases hmn : minNear t (nearList env t ex.1 (radius t.size)) none with
      | none =>
        dsimp only
        exact ⟨addNode_good h hi (Or.inl g3) g2 g1, by rw [addNode_old _ _ _ _ h.pos]; exact h0⟩
      | some m =>
        dsimp only
        obtain ⟨q1, -, -⟩ := (minNear_spec t _ none).1 m hmn
        have q1 : m ∈ nearList env t ex.1 (radius t.size) := by
          rcases q1 with q1 | q1
          · exact q1
          · cases q1
        obtain ⟨n1, n2, n3, n4⟩ := nearList_spec _ _ _ _ _ q1
        have hs := rewirable_spec hm (a := ex.1) (b := (t.nd m.1).v) (by rw [n2, hm.symm]) n4
        have hgood := addNode_good h n1 (v := ex.1) (Or.inr (Or.inr hs)) n2 g1
        obtain ⟨r1, r2, r3, r4⟩ := rewireAll_good hm ((nearList env t ex.1 (radius t.size)).filter (·.1 ≠ m.1)) hgood
          (by rw [addNode_old _ _ _ _ h.pos]; exact h0) (by
            intro e' he'
            obtain ⟨k1, k2, k3, k4⟩ := nearList_spec _ _ _ _ _ (List.mem_filter.1 he').1
            have hh : (addNode t ex.1 m.2 (some m.1)).head.v = ex.1 := by
              show ((addNode t ex.1 m.2 (some m.1)).nd (t.size + 1 - 1)).v = _
              rw [Nat.add_sub_cancel, addNode_new]
            rw [hh, addNode_old _ _ _ _ k1]
            refine ⟨?_, by rw [k2, hm.symm], Or.inr (Or.inl (rewirable_spec hm (by rw [k2, hm.symm]) k4))⟩
            show e'.1 < t.size + 1
            omega)
        exact ⟨r1, r4⟩

/-- C64 for the variant that rewires: the path begins at the start, ends at a goal on success, has the reported length, and each of its edges is short
or has been tested at points less than a step apart. -/
theorem zRRTFindPathOpt_spec {env : Env P K} (hm : Metric env) (radius : Nat → K) (rnd : Nat → P) (start : P) (iter : Int) :
    ∃ N, ∃ ret l c b, (∀ fuel ≥ N, zRRTFindPathOpt env radius rnd fuel start iter true = .ok (ret, some (l, c))) ∧ IsPath env (Checked env) start b l c ∧
      (ret = true → env.goal b = true) := by
  have hloop : ∀ k i (t : Tree P K), Good env (Checked env) start t → 0 ≤ (t.nd 0).total →
      ∃ t' b, findLoop (extendOpt env radius) env.goal rnd k i t = .ok (t', b) ∧ Good env (Checked env) start t' ∧ (b = true → env.goal t'.head.v = true) := by
    intro k
    induction k with
    | zero => intro i t h _; exact ⟨t, false, rfl, h, by simp⟩
    | succ k ih =>
      intro i t h h0
      obtain ⟨t1, r, e, h1, h01⟩ := extendOpt_good hm radius h h0 (rnd i)
      unfold findLoop
      rw [e]
      have rest : ∃ t' b, (if env.goal t1.head.v = true then Res.ok (t1, true) else findLoop (extendOpt env radius) env.goal rnd k (i+1) t1) = .ok (t', b) ∧
          Good env (Checked env) start t' ∧ (b = true → env.goal t'.head.v = true) := by
        by_cases hg : env.goal t1.head.v = true
        · rw [if_pos hg]; exact ⟨_, _, rfl, h1, fun _ => hg⟩
        · rw [if_neg hg]; exact ih (i+1) t1 h1 h01
      cases r with
      | trapped => exact ih (i+1) t1 h1 h01
      | nop => exact rest
      | advanced => exact rest
      | reached => exact rest
  obtain ⟨t, ret, e, h, hg⟩ := hloop (OneD.iterInit iter) 0 (init start) (init_good env _ start) le_rfl
  obtain ⟨N, l, c, e1, hp⟩ := path_spec h (i := t.size - 1) (by have := h.pos; omega)
  refine ⟨N, ret, l, c, _, ?_, hp, hg⟩
  intro fuel hf
  unfold zRRTFindPathOpt findPath finish
  rw [e]
  dsimp only
  rw [if_pos rfl, e1 fuel hf]

end Opt

/-! ## Two trees -/

/-- One extension, with the distance of the head when it has advanced. -/
theorem extend_adv {env : Env P K} (hm : Metric env) {start : P} {t : Tree P K} (h : Good env (Short env) start t) (vr : P) :
    ∃ t' r, extend env t vr = .ok (t', r) ∧ Good env (Short env) start t' ∧ (r = .reached → t'.head.v = vr) ∧
      (r = .advanced → (∀ j < t.size, env.eps ≤ env.dist vr (t.nd j).v) ∧ ∀ j < t.size, env.dist vr t'.head.v ≤ env.dist vr (t.nd j).v - env.eps) := by
  obtain ⟨i, hi, e, hmin⟩ := nn_spec env t vr h.pos
  obtain ⟨t', r, e', hg, hr⟩ := extend_good hm h vr
  refine ⟨t', r, e', hg, hr, ?_⟩
  intro hadv
  subst hadv
  unfold extend at e'
  rw [e] at e'
  dsimp only at e'
  by_cases h1 : |env.dist vr (t.nd i).v| ≤ env.tol
  · rw [if_pos h1] at e'; simp at e'
  · rw [if_neg h1] at e'
    by_cases h2 : (extendTest env (t.nd i).v vr (env.dist vr (t.nd i).v)).2.2 = .trapped
    · rw [if_pos h2] at e'; simp at e'
    · rw [if_neg h2] at e'
      obtain ⟨g1, g2, g3, g4⟩ := extendTest_spec hm rfl h1 h2
      simp only [Res.ok.injEq, Prod.mk.injEq] at e'
      obtain ⟨e1, e2⟩ := e'
      have hbig : env.eps ≤ env.dist vr (t.nd i).v := by
        by_contra hlt
        push Not at hlt
        unfold extendTest at e2
        rw [if_pos hlt] at e2
        dsimp only at e2
        split_ifs at e2
      rcases g4 with ⟨g4, -⟩ | ⟨-, g4⟩
      · rw [e2] at g4; cases g4
      · refine ⟨fun j hj => hbig.trans (hmin j hj), ?_⟩
        intro j hj
        have hh : t'.head.v = (extendTest env (t.nd i).v vr (env.dist vr (t.nd i).v)).1 := by
          rw [← e1]
          show (set1 t.nd t.size _ (t.size + 1 - 1)).v = _
          rw [Nat.add_sub_cancel, set1_same]
        rw [hh, g4]
        have := hmin j hj
        linarith

/-- The greedy extension ends, after at most as many turns as the step length goes into the distance. -/
theorem extendGreedy_spec {env : Env P K} (hm : Metric env) {start : P} (N : Nat) {t : Tree P K} (h : Good env (Short env) start t) (vr : P)
    (hd : ∃ j < t.size, env.dist vr (t.nd j).v < (N + 1) * env.eps) :
    ∃ t' r, (∀ fuel ≥ N + 1, extendGreedy env fuel t vr = .ok (t', r)) ∧ Good env (Short env) start t' ∧ (r = .reached → t'.head.v = vr) ∧ r ≠ .advanced := by
  induction N generalizing t with
  | zero =>
    obtain ⟨j, hj, hd⟩ := hd
    obtain ⟨t', r, e, hg, hr, ha⟩ := extend_adv hm h vr
    have hna : r ≠ .advanced := by
      intro hr
      have := (ha hr).1 j hj
      simp only [Nat.cast_zero, zero_add, one_mul] at hd
      linarith
    refine ⟨t', r, ?_, hg, hr, hna⟩
    intro fuel hf
    obtain ⟨k, rfl⟩ : ∃ k, fuel = k + 1 := ⟨fuel - 1, by omega⟩
    unfold extendGreedy
    rw [e]
    cases r <;> first | rfl | exact absurd rfl hna
  | succ N ih =>
    obtain ⟨j, hj, hd⟩ := hd
    obtain ⟨t', r, e, hg, hr, ha⟩ := extend_adv hm h vr
    by_cases hadv : r = .advanced
    · subst hadv
      have := (ha rfl).2 j hj
      have hhead : t'.size - 1 < t'.size := by have := hg.pos; omega
      obtain ⟨t2, r2, e2, g2, hr2, hn2⟩ := ih hg ⟨t'.size - 1, hhead, by
        show env.dist vr t'.head.v < _
        push_cast at hd
        linarith⟩
      refine ⟨t2, r2, ?_, g2, hr2, hn2⟩
      intro fuel hf
      obtain ⟨k, rfl⟩ : ∃ k, fuel = k + 1 := ⟨fuel - 1, by omega⟩
      unfold extendGreedy
      rw [e]
      exact e2 k (by omega)
    · refine ⟨t', r, ?_, hg, hr, hadv⟩
      intro fuel hf
      obtain ⟨k, rfl⟩ : ∃ k, fuel = k + 1 := ⟨fuel - 1, by omega⟩
      unfold extendGreedy
      rw [e]
      cases r <;> first | rfl | exact absurd rfl hadv

/-- The loop over two trees ends; the trees remain good, and success means that their heads are the same point. -/
theorem dualLoop_spec [Archimedean K] {env : Env P K} (hm : Metric env) (rnd : Nat → P) (k i : Nat) {a b : P} {t1 t2 : Tree P K} (sw : Bool)
    (h1 : Good env (Short env) a t1) (h2 : Good env (Short env) b t2) :
    ∃ N, ∃ u1 u2 sw' r, (∀ fuel ≥ N, dualLoop env rnd fuel k i t1 t2 sw = .ok ((u1, u2, sw'), r)) ∧
      (sw' = sw ∧ Good env (Short env) a u1 ∧ Good env (Short env) b u2 ∨ sw' = (!sw) ∧ Good env (Short env) b u1 ∧ Good env (Short env) a u2) ∧
      (r = true → u2.head.v = u1.head.v) := by
  induction k generalizing i a b t1 t2 sw with
  | zero => exact ⟨0, t1, t2, sw, false, fun _ _ => rfl, Or.inl ⟨rfl, h1, h2⟩, by simp⟩
  | succ k ih =>
    obtain ⟨u1, r1, e1, g1, -⟩ := extend_good hm h1 (rnd i)
    by_cases htr : r1 = .trapped
    · subst htr
      obtain ⟨N, v1, v2, sw', r, e, hs, hr⟩ := ih (i+1) sw g1 h2
      refine ⟨N, v1, v2, sw', r, ?_, hs, hr⟩
      intro fuel hf
      unfold dualLoop
      rw [e1]
      exact e fuel hf
    · obtain ⟨M, hM⟩ := exists_nat_gt (env.dist u1.head.v (t2.nd 0).v / env.eps)
      rw [div_lt_iff₀ hm.eps] at hM
      obtain ⟨u2, r2, e2, g2, hr2, hn2⟩ := extendGreedy_spec hm M h2 u1.head.v ⟨0, h2.pos, by have := hm.eps; linarith⟩
      by_cases hre : r2 = .reached
      · subst hre
        refine ⟨M + 1, u1, u2, sw, true, ?_, Or.inl ⟨rfl, g1, g2⟩, fun _ => hr2 rfl⟩
        intro fuel hf
        unfold dualLoop
        rw [e1]
        cases r1 <;> first | exact absurd rfl htr | (dsimp only; rw [e2 fuel hf])
      · obtain ⟨N, v1, v2, sw', r, e, hs, hr⟩ := ih (i+1) (!sw) g2 g1
        refine ⟨max (M + 1) N, v1, v2, sw', r, ?_, ?_, hr⟩
        · intro fuel hf
          unfold dualLoop
          rw [e1]
          have e2' := e2 fuel (le_trans (le_max_left _ _) hf)
          have e' := e fuel (le_trans (le_max_right _ _) hf)
          cases r1 <;> first
            | exact absurd rfl htr
            | (dsimp only; rw [e2']; cases r2 <;> first | exact absurd rfl hre | exact e')
        · rcases hs with ⟨s1, s2, s3⟩ | ⟨s1, s2, s3⟩
          · exact Or.inr ⟨s1, s2, s3⟩
          · exact Or.inl ⟨by rw [s1]; simp, s2, s3⟩

theorem pathLen_join (dist : P → P → K) (l1 l2 : List P) (a b : P) (h1 : l1.getLast? = some a) (h2 : l2.head? = some b) :
    pathLen dist (l1 ++ l2) = pathLen dist l1 + dist a b + pathLen dist l2 := by
  induction l1 with
  | nil => simp at h1
  | cons x l ih =>
    cases l with
    | nil =>
      simp only [List.getLast?_singleton, Option.some.injEq] at h1
      subst h1
      cases l2 with
      | nil => simp at h2
      | cons y l2 =>
        simp only [List.head?_cons, Option.some.injEq] at h2
        subst h2
        simp [pathLen]
    | cons y l =>
      rw [List.getLast?_cons_cons] at h1
      have := ih h1
      rw [List.cons_append] at this ⊢
      rw [List.cons_append]
      show dist x y + pathLen dist (y :: (l ++ l2)) = dist x y + pathLen dist (y :: l) + dist a b + pathLen dist l2
      rw [this]; ring

theorem pathLen_reverse (dist : P → P → K) (hs : ∀ a b, dist a b = dist b a) (l : List P) : pathLen dist l.reverse = pathLen dist l := by
  induction l with
  | nil => rfl
  | cons x l ih =>
    cases l with
    | nil => rfl
    | cons y l =>
      rw [List.reverse_cons, pathLen_append dist _ y x (by simp), ih, hs y x]
      show _ = dist x y + pathLen dist (y :: l)
      ring

/-- C64 for two trees: the planner ends, and the path it reports leads from the start to the goal through points that are free (except for the two
given ones), has the reported length, and on success each of its edges is at most a step long. -/
theorem zRRTFindPathDual_spec [Archimedean K] {env : Env P K} (hm : Metric env) (rnd : Nat → P) (start goal : P) (iter : Int) :
    ∃ N, ∃ ret l c, (∀ fuel ≥ N, zRRTFindPathDual env rnd fuel start goal iter true = .ok (ret, some (l, c))) ∧
      l.head? = some start ∧ l.getLast? = some goal ∧ (∀ x ∈ l, x = start ∨ x = goal ∨ env.coll x = false) ∧ c = pathLen env.dist l ∧
      (ret = true → l.IsChain (Short env)) := by
  obtain ⟨N, u1, u2, sw, ret, e, hs, hr⟩ := dualLoop_spec hm rnd (OneD.iterInit iter) 0 false (init_good env (Short env) start) (init_good env (Short env) goal)
  obtain ⟨ts, hts⟩ : ∃ ts, ts = if sw then u2 else u1 := ⟨_, rfl⟩
  obtain ⟨tg, htg⟩ : ∃ tg, tg = if sw then u1 else u2 := ⟨_, rfl⟩
  have hgs : Good env (Short env) start ts ∧ Good env (Short env) goal tg ∧ (ret = true → tg.head.v = ts.head.v) := by
    rcases hs with ⟨rfl, s2, s3⟩ | ⟨rfl, s2, s3⟩
    · simp only [Bool.false_eq_true, if_false] at hts htg
      rw [hts, htg]; exact ⟨s2, s3, hr⟩
    · simp only [Bool.not_false, if_true] at hts htg
      rw [hts, htg]; exact ⟨s3, s2, fun h => (hr h).symm⟩
  obtain ⟨g1, g2, g3⟩ := hgs
  obtain ⟨N1, l1, c1, e1, p1⟩ := path_spec g1 (i := ts.size - 1) (by have := g1.pos; omega)
  obtain ⟨N2, l2, c2, e2, p2⟩ := path_spec g2 (i := tg.size - 1) (by have := g2.pos; omega)
  have hne1 : l1 ≠ [] := by rintro rfl; have := p1.first; simp at this
  have hne2 : l2 ≠ [] := by rintro rfl; have := p2.first; simp at this
  have hlast2 : l2.reverse.head? = some tg.head.v := by rw [List.head?_reverse]; exact p2.last
  refine ⟨max N (max N1 N2), ret, l1 ++ l2.reverse, c1 + c2 + env.dist ts.head.v tg.head.v, ?_, ?_, ?_, ?_, ?_, ?_⟩
  · intro fuel hf
    unfold zRRTFindPathDual
    rw [e fuel (le_trans (le_max_left _ _) hf)]
    dsimp only
    rw [if_pos rfl]
    unfold pathDual
    rw [← hts, ← htg, e1 fuel (le_trans (le_trans (le_max_left _ _) (le_max_right _ _)) hf), e2 fuel (le_trans (le_trans (le_max_right _ _) (le_max_right _ _)) hf)]
  · rw [List.head?_append_of_ne_nil _ hne1]; exact p1.first
  · rw [List.getLast?_append_of_ne_nil _ (by simpa using hne2), List.getLast?_reverse]; exact p2.first
  · have aux : ∀ (l : List P) (a : P), l.head? = some a → (∀ x ∈ l.tail, env.coll x = false) → ∀ x ∈ l, x = a ∨ env.coll x = false := by
      intro l a hh hf x hx
      cases l with
      | nil => simp at hh
      | cons y l =>
        simp only [List.head?_cons, Option.some.injEq] at hh
        rcases List.mem_cons.1 hx with rfl | hx
        · exact Or.inl hh
        · exact Or.inr (hf x hx)
    intro x hx
    rcases List.mem_append.1 hx with hx | hx
    · rcases aux l1 _ p1.first p1.free x hx with h | h
      · exact Or.inl h
      · exact Or.inr (Or.inr h)
    · rcases aux l2 _ p2.first p2.free x (List.mem_reverse.1 hx) with h | h
      · exact Or.inr (Or.inl h)
      · exact Or.inr (Or.inr h)
  · rw [pathLen_join env.dist l1 l2.reverse _ _ p1.last hlast2, pathLen_reverse _ hm.symm, p1.len, p2.len]
    show _ = _ + env.dist ts.head.v _ + _
    ring
  · intro hret
    refine List.IsChain.append p1.edges ?_ ?_
    · rw [List.isChain_reverse]
      exact p2.edges.imp fun a b h => by unfold Short at h ⊢; rw [hm.symm]; exact h
    · intro x hx y hy
      rw [p1.last, Option.mem_def, Option.some.injEq] at hx
      rw [hlast2, Option.mem_def, Option.some.injEq] at hy
      rw [← hx, ← hy, g3 hret]
      show env.dist ts.head.v ts.head.v ≤ env.eps
      rw [hm.self]; exact hm.eps.le

/-! ## Shortcuts -/

/-- What the test of a shortcut decides: with `m` halvings until the distance is less than a step, the points at the multiples of `1/2^m` between the
ends are free. -/
theorem shortcutCheck_spec (env : Env P K) (v1 v2 : P) (m : Nat) (s1 s2 d : K) (hlt : d < env.eps * 2^m) (hge : ∀ m' < m, env.eps * 2^m' ≤ d)
    (fuel : Nat) (hf : m < fuel) :
    ∃ b, shortcutCheck env v1 v2 fuel s1 s2 d = .ok b ∧
      (b = true ↔ ∀ j : Nat, 0 < j → j < 2^m → env.coll (env.ext v1 v2 (s1 + (s2 - s1) * ((j : K) / 2^m))) = false) := by
  induction m generalizing s1 s2 d fuel with
  | zero =>
    obtain ⟨k, rfl⟩ : ∃ k, fuel = k + 1 := ⟨fuel - 1, by omega⟩
    unfold shortcutCheck
    rw [if_pos (by simpa using hlt)]
    exact ⟨true, rfl, by simp only [true_iff]; intro j h0 h1; simp at h1; omega⟩
  | succ m ih =>
    obtain ⟨k, rfl⟩ : ∃ k, fuel = k + 1 := ⟨fuel - 1, by omega⟩
    have hge0 := hge 0 (by omega)
    simp only [pow_zero, mul_one] at hge0
    unfold shortcutCheck
    rw [if_neg (not_lt.2 hge0)]
    dsimp only
    have hp : (2:K)^m ≠ 0 := pow_ne_zero _ two_ne_zero
    have hmid : env.ext v1 v2 (s1 + (s2 - s1) * (((2^m : Nat) : K) / 2^(m+1))) = env.ext v1 v2 (1/2 * (s1 + s2)) := by
      congr 1
      push_cast
      rw [pow_succ]
      field_simp
      ring
    have hmidlt : (2:Nat)^m < 2^(m+1) := by rw [pow_succ]; have := Nat.two_pow_pos m; omega
    by_cases hc : env.coll (env.ext v1 v2 (1/2 * (s1 + s2))) = true
    · rw [if_pos hc]
      refine ⟨false, rfl, ?_⟩
      simp only [Bool.false_eq_true, false_iff]
      intro hall
      have := hall (2^m) (Nat.two_pow_pos m) hmidlt
      rw [hmid, hc] at this
      cases this
    · rw [if_neg hc]
      have hlt' : d * (1/2) < env.eps * 2^m := by rw [pow_succ] at hlt; linarith
      have hge' : ∀ m' < m, env.eps * 2^m' ≤ d * (1/2) := by
        intro m' hm'
        have := hge (m' + 1) (by omega)
        rw [pow_succ] at this
        linarith
      obtain ⟨b1, e1, h1⟩ := ih s1 (1/2 * (s1 + s2)) (d * (1/2)) hlt' hge' k (by omega)
      obtain ⟨b2, e2, h2⟩ := ih (1/2 * (s1 + s2)) s2 (d * (1/2)) hlt' hge' k (by omega)
      rw [e1]
      have hfst : ∀ j : Nat, s1 + (1/2 * (s1 + s2) - s1) * ((j : K) / 2^m) = s1 + (s2 - s1) * ((j : K) / 2^(m+1)) := by
        intro j; rw [pow_succ]; field_simp; ring
      have hsnd : ∀ j : Nat, 1/2 * (s1 + s2) + (s2 - 1/2 * (s1 + s2)) * ((j : K) / 2^m) = s1 + (s2 - s1) * (((j + 2^m : Nat) : K) / 2^(m+1)) := by
        intro j; push_cast; rw [pow_succ]; field_simp; ring
      have hcomb : (b1 = true ∧ b2 = true) ↔ ∀ j : Nat, 0 < j → j < 2^(m+1) → env.coll (env.ext v1 v2 (s1 + (s2 - s1) * ((j : K) / 2^(m+1)))) = false := by
        rw [h1, h2]
        constructor
        · rintro ⟨a, b⟩ j hj0 hj
          rcases lt_trichotomy j (2^m) with h | h | h
          · rw [← hfst]; exact a j hj0 h
          · rw [h, hmid]; simpa using hc
          · obtain ⟨i, rfl⟩ : ∃ i, j = i + 2^m := ⟨j - 2^m, by omega⟩
            rw [← hsnd]
            exact b i (by omega) (by rw [pow_succ] at hj; omega)
        · intro a
          constructor
          · intro j hj0 hj
            rw [hfst]; exact a j hj0 (by omega)
          · intro j hj0 hj
            rw [hsnd]; exact a (j + 2^m) (by omega) (by rw [pow_succ]; omega)
      cases b1 with
      | true => exact ⟨b2, e2, by rw [← hcomb]; simp⟩
      | false => exact ⟨false, rfl, by rw [← hcomb]; simp⟩

/-- Two points that follow each other in a list. -/
def Consec (l : List P) (a b : P) : Prop := ∃ u w, l = u ++ a :: b :: w

theorem shortcutScan_spec (check : P → P → Res Bool) (cp1 m : P) (rest : List P) {m' : P} {rest' : List P}
    (h : shortcutScan check cp1 m rest = .ok (m', rest')) :
    ∃ sk, m :: rest = sk ++ m' :: rest' ∧ (sk = [] ∨ check cp1 m' = .ok true) := by
  induction rest generalizing m with
  | nil =>
    simp only [shortcutScan, Res.ok.injEq, Prod.mk.injEq] at h
    obtain ⟨rfl, rfl⟩ := h
    exact ⟨[], rfl, Or.inl rfl⟩
  | cons c rest ih =>
    unfold shortcutScan at h
    cases hc : check cp1 c with
    | fail => rw [hc] at h; simp at h
    | ub => rw [hc] at h; simp at h
    | ok b =>
      rw [hc] at h
      cases b with
      | true =>
        obtain ⟨sk, e, hs⟩ := ih c h
        refine ⟨m :: sk, by rw [e]; rfl, Or.inr ?_⟩
        rcases hs with rfl | hs
        · rw [List.nil_append, List.cons.injEq] at e
          rw [← e.1]; exact hc
        · exact hs
      | false =>
        simp only [Res.ok.injEq, Prod.mk.injEq] at h
        obtain ⟨rfl, rfl⟩ := h
        exact ⟨[], rfl, Or.inl rfl⟩

/-- The loop over the path: its ends are kept, the result is a part of the input in the same order, each of its pairs passed the test or was consecutive,
and the cost is the length of the result, or that without the last edge. -/
theorem shortcutLoop_spec (env : Env P K) (check : P → P → Res Bool) (k : Nat) (cp1 m : P) (rest : List P) (cost : K) {l : List P} {c : K}
    (h : shortcutLoop env check k cp1 m rest cost = .ok (l, c)) :
    l.head? = some cp1 ∧ l.getLast? = (m :: rest).getLast? ∧ l.Sublist (cp1 :: m :: rest) ∧
      l.IsChain (fun a b => check a b = .ok true ∨ Consec (cp1 :: m :: rest) a b) ∧ 2 ≤ l.length ∧
      (c = cost + pathLen env.dist l ∨ c = cost + pathLen env.dist l.dropLast) := by
  induction k generalizing cp1 m rest cost l c with
  | zero => simp [shortcutLoop] at h
  | succ k ih =>
    unfold shortcutLoop at h
    cases rest with
    | nil =>
      simp only [Res.ok.injEq, Prod.mk.injEq] at h
      obtain ⟨rfl, rfl⟩ := h
      refine ⟨rfl, rfl, List.Sublist.refl _, ?_, le_rfl, Or.inr ?_⟩
      · rw [List.isChain_pair]; exact Or.inr ⟨[], [], rfl⟩
      · simp [pathLen]
    | cons x rest =>
      dsimp only at h
      cases hs : shortcutScan check cp1 m (x :: rest) with
      | fail => rw [hs] at h; simp at h
      | ub => rw [hs] at h; simp at h
      | ok r =>
        obtain ⟨m', rest'⟩ := r
        rw [hs] at h
        obtain ⟨sk, e, hsk⟩ := shortcutScan_spec check cp1 m (x :: rest) hs
        have hpair : check cp1 m' = .ok true ∨ Consec (cp1 :: m :: x :: rest) cp1 m' := by
          rcases hsk with rfl | hsk
          · right; rw [e]; exact ⟨[], rest', rfl⟩
          · exact Or.inl hsk
        cases rest' with
        | nil =>
          simp only [Res.ok.injEq, Prod.mk.injEq] at h
          obtain ⟨rfl, rfl⟩ := h
          refine ⟨rfl, ?_, ?_, ?_, le_rfl, Or.inl ?_⟩
          · rw [e]; simp
          · rw [e]; exact List.Sublist.cons₂ _ (List.sublist_append_right _ _)
          · rw [List.isChain_pair]; exact hpair
          · simp [pathLen]
        | cons y rest' =>
          dsimp only at h
          cases hl : shortcutLoop env check k m' y rest' (cost + env.dist cp1 m') with
          | fail => rw [hl] at h; simp at h
          | ub => rw [hl] at h; simp at h
          | ok r =>
            obtain ⟨l', c'⟩ := r
            rw [hl] at h
            simp only [Res.ok.injEq, Prod.mk.injEq] at h
            obtain ⟨rfl, rfl⟩ := h
            obtain ⟨i1, i2, i3, i4, i5, i6⟩ := ih m' y rest' _ hl
            cases l' with
            | nil => simp at i1
            | cons z l' =>
              simp only [List.head?_cons, Option.some.injEq] at i1
              subst i1
              refine ⟨rfl, ?_, ?_, ?_, ?_, ?_⟩
              · rw [List.getLast?_cons_cons, i2, e, List.getLast?_append_of_ne_nil _ (by simp), List.getLast?_cons_cons]
              · rw [e]; exact List.Sublist.cons₂ _ (i3.trans (List.sublist_append_right _ _))
              · rw [List.isChain_cons_cons]
                refine ⟨hpair, i4.imp ?_⟩
                rintro a b (hab | ⟨u, w, hab⟩)
                · exact Or.inl hab
                · right; rw [e, hab]; exact ⟨cp1 :: sk ++ u, w, by simp⟩
              · simp only [List.length_cons] at i5 ⊢; omega
              · rcases i6 with i6 | i6
                · left; rw [i6]; show _ = cost + (env.dist cp1 z + pathLen env.dist (z :: l')); ring
                · right
                  rw [i6]
                  cases l' with
                  | nil => simp at i5
                  | cons w l' =>
                    rw [List.dropLast_cons₂, List.dropLast_cons₂]
                    show _ = cost + (env.dist cp1 z + pathLen env.dist (z :: (w :: l').dropLast))
                    ring

/-- The loop ends: the measure is the number of the remaining cells. -/
theorem shortcutLoop_total (env : Env P K) (check : P → P → Res Bool) (hck : ∀ a b, ∃ r, check a b = .ok r) (k : Nat) (cp1 m : P) (rest : List P)
    (cost : K) (hk : rest.length < k) : ∃ r, shortcutLoop env check k cp1 m rest cost = .ok r := by
  have hscan : ∀ rest m, ∃ m' rest', shortcutScan check cp1 m rest = .ok (m', rest') ∧ rest'.length ≤ rest.length := by
    intro rest
    induction rest with
    | nil => intro m; exact ⟨m, [], rfl, le_rfl⟩
    | cons x rest ih =>
      intro m
      obtain ⟨b, hb⟩ := hck cp1 x
      unfold shortcutScan
      rw [hb]
      cases b with
      | true =>
        obtain ⟨m', rest', e, hl⟩ := ih x
        exact ⟨m', rest', e, by simp only [List.length_cons]; omega⟩
      | false => exact ⟨m, x :: rest, rfl, le_rfl⟩
  induction k generalizing cp1 m rest cost with
  | zero => omega
  | succ k ih =>
    unfold shortcutLoop
    cases rest with
    | nil => exact ⟨_, rfl⟩
    | cons x rest =>
      dsimp only
      obtain ⟨m', rest', e, hl⟩ := hscan (x :: rest) m
      rw [e]
      cases rest' with
      | nil => exact ⟨_, rfl⟩
      | cons y rest' =>
        dsimp only
        obtain ⟨r, er⟩ := ih m' y rest' (cost + env.dist cp1 m') (by simp only [List.length_cons] at hk hl; omega) (by
          intro rest
          induction rest with
          | nil => intro m; exact ⟨m, [], rfl, le_rfl⟩
          | cons x rest ih =>
            intro m
            obtain ⟨b, hb⟩ := hck m' x
            unfold shortcutScan
            rw [hb]
            cases b with
            | true =>
              obtain ⟨m', rest', e, hl⟩ := ih x
              exact ⟨m', rest', e, by simp only [List.length_cons]; omega⟩
            | false => exact ⟨m, x :: rest, rfl, le_rfl⟩)
        rw [er]
        exact ⟨_, rfl⟩

/-- A shortcut from `a` to `b` that has been tested: the points at the multiples of `1/2^m` of the way are free, less than a step apart. -/
def ShortcutFree (env : Env P K) (a b : P) : Prop :=
  ∃ m : Nat, env.dist a b / 2^m < env.eps ∧ ∀ j : Nat, 0 < j → j < 2^m → env.coll (env.ext a b ((j : K) / 2^m)) = false

/-- C65 (what holds): shortcutting ends, keeps the end points, keeps the order of the points, each pair of the result has been tested or was consecutive,
and the reported cost is the length of the result, or that without its last edge.  The latter happens, see `zRRTShortcutPath_cost_violated`. -/
theorem zRRTShortcutPath_spec_partial (env : Env P K) (fuel : Nat) (path l : List P) (hlen : 3 ≤ path.length) (c : Option K)
    (h : zRRTShortcutPath env fuel path = .ok (l, c)) :
    l.head? = path.head? ∧ l.getLast? = path.getLast? ∧ l.Sublist path ∧
      l.IsChain (fun a b => shortcutCheck env a b fuel 0 1 (env.dist a b) = .ok true ∨ Consec path a b) ∧
      (c = some (pathLen env.dist l) ∨ c = some (pathLen env.dist l.dropLast)) := by
  match path, hlen with
  | cp1 :: m :: x :: rest, _ =>
    unfold zRRTShortcutPath at h
    dsimp only at h
    cases hl : shortcutLoop env (fun a b => shortcutCheck env a b fuel 0 1 (env.dist a b)) (rest.length + 2) cp1 m (x :: rest) 0 with
    | fail => rw [hl] at h; simp at h
    | ub => rw [hl] at h; simp at h
    | ok r =>
      obtain ⟨l', c'⟩ := r
      rw [hl] at h
      simp only [Res.ok.injEq, Prod.mk.injEq] at h
      obtain ⟨rfl, rfl⟩ := h
      obtain ⟨a1, a2, a3, a4, -, a6⟩ := shortcutLoop_spec env _ _ cp1 m (x :: rest) 0 hl
      refine ⟨a1, by rw [a2, List.getLast?_cons_cons (a := cp1)], a3, a4, ?_⟩
      rcases a6 with a6 | a6
      · left; rw [a6, zero_add]
      · right; rw [a6, zero_add]

/-- A passed test means that the shortcut is free at points less than a step apart. -/
theorem shortcutCheck_free [Archimedean K] {env : Env P K} (heps : 0 < env.eps) (a b : P) :
    ∃ N, ∀ fuel ≥ N, ∃ r, shortcutCheck env a b fuel 0 1 (env.dist a b) = .ok r ∧ (r = true → ShortcutFree env a b) := by
  classical
  have hex : ∃ m : Nat, env.dist a b < env.eps * 2^m := by
    obtain ⟨n, hn⟩ := exists_nat_gt (env.dist a b / env.eps)
    refine ⟨n, ?_⟩
    rw [div_lt_iff₀ heps] at hn
    have h2 : (n : K) ≤ 2^n := by exact_mod_cast Nat.lt_two_pow_self.le
    nlinarith
  have hm := Nat.find_spec hex
  have hmin : ∀ m' < Nat.find hex, env.eps * 2^m' ≤ env.dist a b := fun m' hm' => not_lt.1 (Nat.find_min hex hm')
  refine ⟨Nat.find hex + 1, fun fuel hf => ?_⟩
  obtain ⟨r, e, hr⟩ := shortcutCheck_spec env a b _ 0 1 _ hm hmin fuel (by omega)
  refine ⟨r, e, fun hrt => ⟨Nat.find hex, ?_, ?_⟩⟩
  · rw [div_lt_iff₀ (by positivity)]; exact hm
  · intro j h0 h1
    have := hr.1 hrt j h0 h1
    simpa using this

/-- Shortcutting ends, with as much stack as the longest distance needs. -/
theorem zRRTShortcutPath_total (env : Env P K) (heps : 0 < env.eps) (m fuel : Nat) (hd : ∀ a b, env.dist a b < env.eps * 2^m) (hf : m < fuel) (path : List P) :
    ∃ r, zRRTShortcutPath env fuel path = .ok r := by
  classical
  have hck : ∀ a b, ∃ r, (fun a b => shortcutCheck env a b fuel 0 1 (env.dist a b)) a b = .ok r := by
    intro a b
    have hex : ∃ m : Nat, env.dist a b < env.eps * 2^m := ⟨m, hd a b⟩
    have hle := Nat.find_min' hex (hd a b)
    obtain ⟨r, e, -⟩ := shortcutCheck_spec env a b _ 0 1 _ (Nat.find_spec hex) (fun m' hm' => not_lt.1 (Nat.find_min hex hm')) fuel (by omega)
    exact ⟨r, e⟩
  match path with
  | [] => exact ⟨_, rfl⟩
  | [a] => exact ⟨_, rfl⟩
  | [a, b] => exact ⟨_, rfl⟩
  | cp1 :: m :: x :: rest =>
    obtain ⟨⟨l, c⟩, e⟩ := shortcutLoop_total env _ hck (rest.length + 2) cp1 m (x :: rest) 0 (by simp)
    unfold zRRTShortcutPath
    dsimp only
    rw [e]
    exact ⟨_, rfl⟩

/-! ## Escape -/

/-- A point found by the escape algorithm is free. -/
theorem zRRTEscape_spec (env : Env P K) (rnd : Nat → P) (start : P) (iter : Int) :
    ∃ p r, zRRTEscape env rnd start iter = .ok (p, r) ∧ (r = true → env.coll p = false) ∧ (env.coll start = false → p = start ∧ r = true) := by
  unfold zRRTEscape
  by_cases hc : env.coll start = true
  swap
  · rw [if_neg hc]; exact ⟨_, _, rfl, fun _ => by simpa using hc, fun _ => ⟨rfl, rfl⟩⟩
  rw [if_pos hc]
  have hloop : ∀ k i (t : Tree P K), 0 < t.size → ∃ t' r, escapeLoop env rnd k i t = .ok (t', r) ∧ (r = true → env.coll t'.head.v = false) := by
    intro k
    induction k with
    | zero => intro i t _; exact ⟨t, false, rfl, by simp⟩
    | succ k ih =>
      intro i t ht
      obtain ⟨j, hj, e, -⟩ := nn_spec env t (rnd i) ht
      unfold escapeLoop extendEscape
      rw [e]
      dsimp only
      by_cases h1 : |env.dist (rnd i) (t.nd j).v| ≤ env.tol
      · rw [if_pos h1]; exact ih (i+1) t ht
      · rw [if_neg h1]
        generalize (if env.dist (rnd i) (t.nd j).v < env.eps then rnd i else env.ext (t.nd j).v (rnd i) (env.eps / env.dist (rnd i) (t.nd j).v)) = ve
        by_cases h2 : env.coll ve = true
        · rw [if_pos h2]; exact ih (i+1) _ (Nat.succ_pos _)
        · rw [if_neg h2]
          refine ⟨_, _, rfl, fun _ => ?_⟩
          show env.coll (set1 t.nd t.size _ (t.size + 1 - 1)).v = false
          rw [Nat.add_sub_cancel, set1_same]
          simpa using h2
  obtain ⟨t', r, e, hr⟩ := hloop (OneD.iterInit iter) 0 (init start) Nat.one_pos
  rw [e]
  exact ⟨_, _, rfl, hr, fun h => by rw [h] at hc; cases hc⟩

/-! ## Functions that are not given -/

/-- A planner without a check of collisions: the function used instead reports a collision for every point, and the tree never grows; the only path
that is ever reported is the start. -/
theorem zRRTInit_default_violated {V : Type*} [AddCommGroup V] [Module K V] (dist : V → V → K) (eps tol : K) (rnd : Nat → V) (start : V) (iter : Int) (fuel : Nat) :
    ∃ ret, zRRTFindPath (defaultEnv dist eps tol) rnd (fuel + 1) start iter true = .ok (ret, some ([start], 0)) := by
  have hloop : ∀ k i, ∃ b, findLoop (extend (defaultEnv dist eps tol)) (defaultEnv dist eps tol).goal rnd k i (init start : Tree V K) = .ok (init start, b) := by
    intro k
    induction k with
    | zero => intro i; exact ⟨false, rfl⟩
    | succ k ih =>
      intro i
      obtain ⟨j, hj, e, -⟩ := nn_spec (defaultEnv dist eps tol) (init start : Tree V K) (rnd i) Nat.one_pos
      unfold findLoop extend
      rw [e]
      dsimp only
      by_cases h1 : |(defaultEnv dist eps tol).dist (rnd i) ((init start : Tree V K).nd j).v| ≤ (defaultEnv dist eps tol).tol
      · rw [if_pos h1]; exact ⟨true, rfl⟩
      · rw [if_neg h1]
        have : ∀ a vr d, (extendTest (defaultEnv dist eps tol) a vr d).2.2 = .trapped := by
          intro a vr d
          unfold extendTest
          dsimp only
          by_cases h2 : d < (defaultEnv dist eps tol).eps
          · rw [if_pos h2]; rfl
          · rw [if_neg h2]; rfl
        rw [if_pos (this _ _ _)]
        exact ih (i+1)
  obtain ⟨b, e⟩ := hloop (OneD.iterInit iter) 0
  refine ⟨b, ?_⟩
  unfold zRRTFindPath findPath finish
  rw [e]
  rfl

/-! ## Non-vacuity -/

/-- The default metric and extension of the library satisfy the assumptions, with any check of collisions. -/
theorem metric_default (n : Nat) (coll goal : (Nat → ℝ) → Bool) (eps tol : ℝ) (he : 0 < eps) (ht : 0 ≤ tol) :
    Metric { defaultEnv (fun a b => Cont.zVecDist n a b) eps tol with coll := coll, goal := goal } := by
  have hmul : ∀ (a b : Nat → ℝ) (s : ℝ) (f : Nat → ℝ), 0 ≤ s → (∀ i, (a i - f i) = s * (a i - b i) ∨ (a i - f i) = s * (b i - a i)) →
      Cont.zVecDist n a f = s * Cont.zVecDist n a b := by
    intro a b s f hs hf
    rw [Cont.zVecDist_spec, Cont.zVecDist_spec]
    unfold Cont.euclid
    have : ∑ i ∈ Finset.range n, (a i - f i)^2 = s^2 * ∑ i ∈ Finset.range n, (a i - b i)^2 := by
      rw [Finset.mul_sum]
      refine Finset.sum_congr rfl fun i _ => ?_
      rcases hf i with h | h <;> rw [h] <;> ring
    rw [this, Real.sqrt_mul (sq_nonneg s), Real.sqrt_sq hs]
  have hsymm : ∀ a b, Cont.zVecDist n a b = Cont.zVecDist n b a := by
    intro a b
    rw [Cont.zVecDist_spec, Cont.zVecDist_spec]
    unfold Cont.euclid
    congr 1
    exact Finset.sum_congr rfl fun i _ => by ring
  refine ⟨hsymm, ?_, ?_, ?_, ?_, he, ht⟩
  · intro a b
    show 0 ≤ Cont.zVecDist n a b
    rw [Cont.zVecDist_spec]; exact Cont.euclid_nonneg n a b
  · intro a
    show Cont.zVecDist n a a = 0
    have := hmul a a 0 a le_rfl (by intro i; left; ring)
    rw [this]; ring
  · intro a b s hs _
    refine hmul a b s _ hs (fun i => Or.inl ?_)
    show a i - ((1 - s) * a i + s * b i) = _
    ring
  · intro a b s _ hs
    show Cont.zVecDist n b ((1 - s) • a + s • b) = (1 - s) * Cont.zVecDist n a b
    rw [hsymm a b]
    refine hmul b a (1 - s) _ (by linarith) (fun i => Or.inl ?_)
    show b i - ((1 - s) * a i + s * b i) = _
    ring

/-- A line with an obstacle. -/
def lineEnv (obst : ℚ → Bool) : Env ℚ ℚ :=
  { dist := fun a b => |a - b|, ext := fun a b s => (1 - s) * a + s * b, coll := obst, goal := fun x => decide (x = 5), eps := 2, tol := 0 }

/-- A run: the random points 4, 5 lead from 0 over 2, 4 to 5. -/
example : (match zRRTFindPath (lineEnv fun x => decide (x = 3)) (fun i => if i < 2 then 4 else 5) 9 0 3 true with
    | .ok (r, some (l, c)) => decide (r = true ∧ l = [0, 2, 4, 5] ∧ c = 5) | _ => false) = true := by decide +kernel

/-- A run with two trees. -/
example : (match zRRTFindPathDual (lineEnv fun x => decide (x = 3)) (fun _ => 4) 9 0 (17/2) 3 true with
    | .ok (r, some (l, c)) => decide (r = true ∧ l = [0, 2, 2, 5/2, 9/2, 13/2, 17/2] ∧ c = 17/2) | _ => false) = true := by decide +kernel

/-- When the second tree lands on the head of the first one with a full step, the meeting is not reported: the steps from 8 over 6 and 4 to 2 are
advances, and the next one is none. -/
theorem zRRTFindPathDual_meet_violated :
    (match dualLoop (lineEnv fun x => decide (x = 3)) (fun _ => 4) 9 1 0 (init 0) (init 8) false with
    | .ok ((t1, t2, sw), r) => decide (r = false ∧ t1.head.v = 2 ∧ t2.head.v = 2 ∧ sw = true) | _ => false) = true := by decide +kernel

/-- C65 is violated: the last edge is missing from the cost.  The shortcut from 0 to 4 meets the obstacle 2; the path 0, 7, 4 of the length 10 stays,
and the cost 7 is reported. -/
theorem zRRTShortcutPath_cost_violated :
    (match zRRTShortcutPath (lineEnv fun x => decide (x = 2)) 9 [0, 7, 4] with
      | .ok (l, c) => decide (l = [0, 7, 4] ∧ c = some 7 ∧ pathLen (lineEnv fun x => decide (x = 2)).dist l = 10) | _ => false) = true := by
  decide +kernel

/-- A shortcut that is taken. -/
example : (match zRRTShortcutPath (lineEnv fun x => decide (x = 2)) 9 [0, 7, 5, 1, -3, -5] with
      | .ok (l, c) => decide (l = [0, -5] ∧ c = some 5) | _ => false) = true := by decide +kernel

end Zm.RRT
