import Verif.Model.NM
import Mathlib.Data.Fin.Tuple.Sort
import Mathlib.Data.Fintype.EquivFin
import Mathlib.Algebra.BigOperators.Intervals
import Mathlib.Algebra.Field.Rat
import Mathlib.Algebra.Order.Ring.Rat
import Mathlib.Algebra.Module.Basic
import Mathlib.Tactic.Linarith
import Mathlib.Tactic.NormNum

/-!
# Nelder and Mead's method

C71: every stored value is the objective at its vertex, the best value never increases, and the value reported is the objective of the answer.
-/

set_option linter.unusedSectionVars false

namespace Zm.NM
variable {K V : Type*} [Field K] [LinearOrder K] [IsStrictOrderedRing K] [AddCommGroup V] [Module K V]

/-- The index is a rearrangement of `0 … num-1`. -/
def IsPerm (num : Nat) (idx : Nat → Nat) : Prop := (∀ k < num, idx k < num) ∧ ∀ a b, a < num → b < num → idx a = idx b → a = b

/-- The values ascend along the index. -/
def Ascends (num : Nat) (v : Nat → K) (idx : Nat → Nat) : Prop := ∀ a b, a ≤ b → b < num → v (idx a) ≤ v (idx b)

/-- What is assumed of ZEDA's sort. -/
def SrtOk (env : Env K V) : Prop := ∀ v idx, IsPerm env.num idx → IsPerm env.num (env.srt v idx) ∧ Ascends env.num v (env.srt v idx)

/-- What holds between the turns. -/
structure Inv (env : Env K V) (s : NM K V) : Prop where
  perm : IsPerm env.num s.index
  value : ∀ i < env.num, s.eval i = env.f (s.e i)
  sorted : Ascends env.num s.eval s.index

theorem IsPerm.surj {num : Nat} {idx : Nat → Nat} (h : IsPerm num idx) {i : Nat} (hi : i < num) : ∃ k < num, idx k = i := by
  have hinj : Function.Injective (fun k : Fin num => (⟨idx k, h.1 k k.2⟩ : Fin num)) := by
    intro a b hab
    simp only [Fin.mk.injEq] at hab
    exact Fin.ext (h.2 a b a.2 b.2 hab)
  obtain ⟨k, hk⟩ := (Finite.injective_iff_surjective.1 hinj) ⟨i, hi⟩
  exact ⟨k, k.2, by simpa using hk⟩

/-- The first of the index is the best. -/
theorem Inv.best {env : Env K V} {s : NM K V} (h : Inv env s) {i : Nat} (hi : i < env.num) : s.eval s.tail ≤ s.eval i := by
  obtain ⟨k, hk, rfl⟩ := h.perm.surj hi
  exact h.sorted 0 k (Nat.zero_le _) hk

theorem reordPos_spec (env : Env K V) (s : NM K V) (k : Nat) (hk : k ≤ env.num) :
    (∃ i, reordPos env s k = some i ∧ env.num - k ≤ i ∧ i < env.num ∧ s.eval (s.head env) < s.eval (s.index i) ∧ ∀ j, env.num - k ≤ j → j < i → s.eval (s.index j) ≤ s.eval (s.head env)) ∨
    (reordPos env s k = none ∧ ∀ j, env.num - k ≤ j → j < env.num → s.eval (s.index j) ≤ s.eval (s.head env)) := by
  induction k with
  | zero => right; exact ⟨rfl, fun j h1 h2 => by omega⟩
  | succ k ih =>
    unfold reordPos
    by_cases h : s.eval (s.index (env.num - (k+1))) > s.eval (s.head env)
    · rw [if_pos h]; left; exact ⟨_, rfl, le_rfl, by omega, h, fun j h1 h2 => by omega⟩
    · rw [if_neg h]
      have hj : ∀ j, env.num - (k+1) ≤ j → ¬ (env.num - k ≤ j) → s.eval (s.index j) ≤ s.eval (s.head env) := by
        intro j h1 h2; rw [show j = env.num - (k+1) by omega]; exact not_lt.1 h
      rcases ih (by omega) with ⟨i, e, a, b, c, d⟩ | ⟨e, d⟩
      · left
        refine ⟨i, e, by omega, b, c, fun j h1 h2 => ?_⟩
        by_cases hh : env.num - k ≤ j
        · exact d j hh h2
        · exact hj j h1 hh
      · right
        refine ⟨e, fun j h1 h2 => ?_⟩
        by_cases hh : env.num - k ≤ j
        · exact d j hh h2
        · exact hj j h1 hh

/-- Reordering sorts the index when only the last vertex is out of order. -/
theorem reord_spec (env : Env K V) (hn : 2 ≤ env.num) (s : NM K V) (hp : IsPerm env.num s.index) (hs : ∀ a b, a ≤ b → b < env.num - 1 → s.eval (s.index a) ≤ s.eval (s.index b)) :
    IsPerm env.num (reord env s).index ∧ Ascends env.num (reord env s).eval (reord env s).index ∧ (reord env s).e = s.e ∧ (reord env s).eval = s.eval := by
  unfold reord
  rcases reordPos_spec env s env.num le_rfl with ⟨i, e, -, b, c, d⟩ | ⟨e, d⟩
  · rw [e]
    have hi : i < env.num - 1 := by
      by_contra hh
      have : i = env.num - 1 := by omega
      rw [this] at c
      exact lt_irrefl _ c
    have hm : ∀ k, indexMove s.index (env.num - 1) i k = if k < i then s.index k else if k = i then s.index (env.num - 1) else if k ≤ env.num - 1 then s.index (k - 1) else s.index k := fun _ => rfl
    refine ⟨⟨fun k hk => ?_, fun a b ha hb hab => ?_⟩, fun a b hab hb => ?_, rfl, rfl⟩
    · show indexMove s.index (env.num - 1) i k < env.num
      rw [hm]; split_ifs <;> exact hp.1 _ (by omega)
    · change indexMove s.index (env.num - 1) i a = indexMove s.index (env.num - 1) i b at hab
      rw [hm, hm] at hab
      split_ifs at hab <;> first | omega | (have := hp.2 _ _ (by omega) (by omega) hab; omega)
    · show s.eval (indexMove s.index (env.num - 1) i a) ≤ s.eval (indexMove s.index (env.num - 1) i b)
      rw [hm, hm]
      by_cases ha1 : a < i
      · rw [if_pos ha1]
        by_cases hb1 : b < i
        · rw [if_pos hb1]; exact hs a b hab (by omega)
        · rw [if_neg hb1]
          by_cases hb2 : b = i
          · rw [if_pos hb2]; exact d a (by omega) ha1
          · rw [if_neg hb2, if_pos (by omega)]; exact hs a (b - 1) (by omega) (by omega)
      · rw [if_neg ha1, if_neg (show ¬ b < i by omega)]
        by_cases ha2 : a = i
        · rw [if_pos ha2]
          by_cases hb2 : b = i
          · rw [if_pos hb2]
          · rw [if_neg hb2, if_pos (by omega)]
            exact (le_of_lt c).trans (hs i (b - 1) (by omega) (by omega))
        · rw [if_neg ha2, if_pos (show a ≤ env.num - 1 by omega), if_neg (show ¬ b = i by omega), if_pos (show b ≤ env.num - 1 by omega)]
          exact hs (a - 1) (b - 1) (by omega) (by omega)
  · rw [e]
    refine ⟨hp, fun a b hab hb => ?_, rfl, rfl⟩
    by_cases hb1 : b = env.num - 1
    · rw [hb1]; exact d a (by omega) (by omega)
    · exact hs a b hab (by omega)

theorem accept_spec (env : Env K V) (hn : 2 ≤ env.num) (s : NM K V) (h : Inv env s) (t : V) :
    Inv env (accept env s t (env.f t)) ∧ (accept env s t (env.f t)).eval (accept env s t (env.f t)).tail ≤ s.eval s.tail ∧
      (accept env s t (env.f t)).eval (accept env s t (env.f t)).tail ≤ env.f t := by
  have hh : s.head env < env.num := h.perm.1 _ (by omega)
  have hne : ∀ k, k < env.num - 1 → s.index k ≠ s.head env := by
    intro k hk he
    have := h.perm.2 k (env.num - 1) (by omega) (by omega) he
    omega
  obtain ⟨a, b, c, d⟩ := reord_spec env hn { s with e := set1 s.e (s.head env) t, eval := set1 s.eval (s.head env) (env.f t) } h.perm (by
    intro a b hab hb
    show set1 s.eval _ _ (s.index a) ≤ set1 s.eval _ _ (s.index b)
    rw [set1_ne _ _ (hne a (by omega)), set1_ne _ _ (hne b hb)]
    exact h.sorted a b hab (by omega))
  have hinv : Inv env (accept env s t (env.f t)) := by
    refine ⟨a, fun i hi => ?_, b⟩
    show (reord env _).eval i = env.f ((reord env _).e i)
    rw [c, d]
    show set1 s.eval _ _ i = env.f (set1 s.e _ _ i)
    by_cases hi' : i = s.head env
    · rw [hi', set1_same, set1_same]
    · rw [set1_ne _ _ hi', set1_ne _ _ hi']; exact h.value i hi
  have hev : ∀ i, (accept env s t (env.f t)).eval i = set1 s.eval (s.head env) (env.f t) i := fun i => by
    show (reord env _).eval i = _
    rw [d]
  refine ⟨hinv, ?_, ?_⟩
  · have := hinv.best (i := s.tail) (h.perm.1 0 (by omega))
    rwa [hev s.tail, set1_ne _ _ (show s.tail ≠ s.head env from hne 0 (by omega))] at this
  · have := hinv.best hh
    rwa [hev (s.head env), set1_same] at this

theorem crunch_e (env : Env K V) (s : NM K V) (i : Nat) :
    (crunch env s).e i = if i < env.num ∧ i ≠ s.tail then (1/2 : K) • (s.e i + s.e s.tail) else s.e i := by
  have := forUp_inv (lo := 0) (hi := env.num) (fun i (e : Nat → V) => if i ≠ s.tail then set1 e i ((1/2 : K) • (e i + e s.tail)) else e) s.e
    (fun k e => ∀ i, e i = if i < k ∧ i ≠ s.tail then (1/2 : K) • (s.e i + s.e s.tail) else s.e i) (Nat.zero_le _)
    (by intro i; rw [if_neg (by omega)])
    (by
      intro k e _ hk h i
      by_cases hkt : k ≠ s.tail
      · rw [if_pos hkt]
        by_cases hik : i = k
        · subst hik; rw [set1_same, if_pos ⟨by omega, hkt⟩, h i, h s.tail, if_neg (by omega), if_neg (by tauto)]
        · rw [set1_ne _ _ hik, h]
          have : (i < k) = (i < k + 1) := propext ⟨by omega, by omega⟩
          simp only [this]
      · rw [if_neg hkt, h]
        by_cases hik : i = k
        · subst hik; rw [if_neg (by omega), if_neg (by tauto)]
        · have : (i < k) = (i < k + 1) := propext ⟨by omega, by omega⟩
          simp only [this])
  exact this i

theorem evalAll_inv (env : Env K V) (hsrt : SrtOk env) (s : NM K V) (hp : IsPerm env.num s.index) : Inv env (evalAll env s) := by
  have hv : ∀ i < env.num, (evalAll env s).eval i = env.f (s.e i) := by
    intro i hi
    show (forUp 0 env.num (fun i v => set1 v i (env.f (s.e i))) s.eval : Nat → K) i = _
    rw [forUp_set1 _ _ (fun k => env.f (s.e k)) (by intros; rfl)]
    beta_reduce
    rw [if_pos ⟨Nat.zero_le _, hi⟩]
  obtain ⟨a, b⟩ := hsrt (evalAll env s).eval s.index hp
  exact ⟨a, hv, b⟩

theorem evalAll_crunch_spec (env : Env K V) (hn : 2 ≤ env.num) (hsrt : SrtOk env) (s : NM K V) (h : Inv env s) :
    Inv env (evalAll env (crunch env s)) ∧ (evalAll env (crunch env s)).eval (evalAll env (crunch env s)).tail ≤ s.eval s.tail := by
  have hinv := evalAll_inv env hsrt (crunch env s) h.perm
  refine ⟨hinv, ?_⟩
  have ht : s.tail < env.num := h.perm.1 0 (by omega)
  have hb := hinv.best ht
  rw [hinv.value _ ht] at hb
  rw [h.value _ ht]
  have : (evalAll env (crunch env s)).e s.tail = s.e s.tail := by
    show (crunch env s).e s.tail = _
    rw [crunch_e, if_neg (by tauto)]
  rwa [this] at hb

theorem expandLoop_spec (env : Env K V) (p : V) (k : Nat) (t : V) {t' : V} {v : K} (h : expandLoop env p k t (env.f t) = .ok (t', v)) : v = env.f t' ∧ v ≤ env.f t := by
  induction k generalizing t with
  | zero => simp [expandLoop] at h
  | succ k ih =>
    unfold expandLoop at h
    split_ifs at h with hc
    · obtain ⟨a, b⟩ := ih _ h
      exact ⟨a, b.trans hc.le⟩
    · simp only [Res.ok.injEq, Prod.mk.injEq] at h
      obtain ⟨rfl, rfl⟩ := h
      exact ⟨rfl, le_rfl⟩

/-- C71, one turn: the values stay those of the vertices, the order is kept, and the best value does not increase. -/
theorem turn_spec (env : Env K V) (hn : 2 ≤ env.num) (hsrt : SrtOk env) (fuel : Nat) (s s' : NM K V) (h : Inv env s) (e : turn env fuel s = .ok s') :
    Inv env s' ∧ s'.eval s'.tail ≤ s.eval s.tail := by
  unfold turn at e
  dsimp only at e
  by_cases h1 : env.f (refl env s (pin env s)) < s.eval s.tail
  · rw [if_pos h1] at e
    cases hl : expandLoop env (pin env s) fuel (refl env s (pin env s)) (env.f (refl env s (pin env s))) with
    | fail => rw [hl] at e; simp at e
    | ub => rw [hl] at e; simp at e
    | ok r =>
      obtain ⟨t, v⟩ := r
      rw [hl] at e
      simp only [Res.ok.injEq] at e
      obtain ⟨rfl, -⟩ := expandLoop_spec env _ _ _ hl
      obtain ⟨a, b, -⟩ := accept_spec env hn s h t
      rw [← e]; exact ⟨a, b⟩
  · rw [if_neg h1] at e
    by_cases h2 : env.f (refl env s (pin env s)) > s.eval (s.neck env)
    · rw [if_pos h2] at e
      by_cases h3 : env.f (shrink env s (pin env s)) > s.eval (s.neck env)
      · rw [if_pos h3] at e
        simp only [Res.ok.injEq] at e
        rw [← e]; exact evalAll_crunch_spec env hn hsrt s h
      · rw [if_neg h3] at e
        simp only [Res.ok.injEq] at e
        obtain ⟨a, b, -⟩ := accept_spec env hn s h (shrink env s (pin env s))
        rw [← e]; exact ⟨a, b⟩
    · rw [if_neg h2] at e
      simp only [Res.ok.injEq] at e
      obtain ⟨a, b, -⟩ := accept_spec env hn s h (refl env s (pin env s))
      rw [← e]; exact ⟨a, b⟩

theorem tryLoop_spec (env : Env K V) (hn : 2 ≤ env.num) (hsrt : SrtOk env) (fuel k i : Nat) (s : NM K V) (h : Inv env s) {j : Nat} {x : V} {v : K}
    (e : tryLoop env fuel k i s = .ok (some (j, x, v))) : i ≤ j ∧ j < i + k ∧ v = env.f x ∧ v ≤ s.eval s.tail := by
  induction k generalizing i s with
  | zero => simp [tryLoop] at e
  | succ k ih =>
    unfold tryLoop at e
    by_cases hc : check env s = true
    · rw [if_pos hc] at e
      simp only [Res.ok.injEq, Option.some.injEq, Prod.mk.injEq] at e
      obtain ⟨rfl, rfl, rfl⟩ := e
      exact ⟨le_rfl, by omega, h.value _ (h.perm.1 0 (by omega)), le_rfl⟩
    · rw [if_neg hc] at e
      cases ht : turn env fuel s with
      | fail => rw [ht] at e; simp at e
      | ub => rw [ht] at e; simp at e
      | ok s' =>
        rw [ht] at e
        obtain ⟨a, b⟩ := turn_spec env hn hsrt fuel s s' h ht
        obtain ⟨c1, c2, c3, c4⟩ := ih (i+1) s' a e
        exact ⟨by omega, by omega, c3, c4.trans b⟩

theorem init_spec (env : Env K V) (mid : V) (axis : Nat → V) (hn : 2 ≤ env.num) : init env mid axis 0 = mid ∧ ∀ i, 1 ≤ i → i < env.num → init env mid axis i = mid + axis (i - 1) := by
  unfold init
  rw [forUp_set1 _ _ (fun k => mid + axis (k - 1)) (by intro k t h1 h2 h3 h4; rw [h4 0 (by omega)])]
  constructor
  · beta_reduce; rw [if_neg (by omega)]
  · intro i h1 h2; beta_reduce; rw [if_pos ⟨h1, h2⟩]

/-- C71: a reported answer comes with its objective value, which is not larger than that of any vertex of the initial simplex. -/
theorem zOptSolveNM_spec (env : Env K V) (hn : 2 ≤ env.num) (hsrt : SrtOk env) (fuel : Nat) (mid : V) (axis : Nat → V) (iter : Int) (i : Nat) (x : V) (v : K)
    (e : zOptSolveNM env fuel mid axis iter = .ok (some (i, x, v))) :
    i < OneD.iterInit iter ∧ v = env.f x ∧ v ≤ env.f mid ∧ ∀ j < env.num - 1, v ≤ env.f (mid + axis j) := by
  unfold zOptSolveNM at e
  have hinv := evalAll_inv env hsrt { e := init env mid axis, eval := fun _ => 0, index := fun i => i } ⟨fun k hk => hk, fun a b _ _ h => h⟩
  obtain ⟨-, a, b, c⟩ := tryLoop_spec env hn hsrt fuel _ 0 _ hinv e
  obtain ⟨i0, i1⟩ := init_spec env mid axis hn
  have hv : ∀ j < env.num, v ≤ env.f (init env mid axis j) := fun j hj => by
    have := hinv.best hj
    rw [hinv.value j hj] at this
    exact c.trans this
  refine ⟨by omega, b, by rw [← i0]; exact hv 0 (by omega), fun j hj => ?_⟩
  have := hv (j + 1) (by omega)
  rwa [i1 (j + 1) (by omega) (by omega), Nat.add_sub_cancel] at this

/-- The solver ends for every objective with finitely many values, as those of `double` are. -/
theorem zOptSolveNM_total (env : Env K V) (S : Finset K) (hS : ∀ x, env.f x ∈ S) (fuel : Nat) (hf : S.card < fuel) (mid : V) (axis : Nat → V) (iter : Int) :
    ∃ r, zOptSolveNM env fuel mid axis iter = .ok r := by
  have hexp : ∀ k p t, (S.filter (· < env.f t)).card < k → ∃ r, expandLoop env p k t (env.f t) = .ok r := by
    intro k
    induction k with
    | zero => intro p t h; omega
    | succ k ih =>
      intro p t h
      unfold expandLoop
      split_ifs with hc
      · refine ih p _ (lt_of_lt_of_le (Finset.card_lt_card ?_) (Nat.lt_succ_iff.1 h))
        refine ⟨fun y hy => ?_, fun hsub => ?_⟩
        · rw [Finset.mem_filter] at hy ⊢; exact ⟨hy.1, hy.2.trans hc⟩
        · have := hsub (Finset.mem_filter.2 ⟨hS _, hc⟩)
          exact lt_irrefl _ (Finset.mem_filter.1 this).2
      · exact ⟨_, rfl⟩
  have hturn : ∀ s, ∃ s', turn env fuel s = .ok s' := by
    intro s
    unfold turn
    dsimp only
    obtain ⟨⟨t, v⟩, e⟩ := hexp fuel (pin env s) (refl env s (pin env s)) (lt_of_le_of_lt (Finset.card_filter_le _ _) hf)
    rw [e]
    split_ifs <;> exact ⟨_, rfl⟩
  have hloop : ∀ k i s, ∃ r, tryLoop env fuel k i s = .ok r := by
    intro k
    induction k with
    | zero => intro i s; exact ⟨_, rfl⟩
    | succ k ih =>
      intro i s
      unfold tryLoop
      obtain ⟨s', e⟩ := hturn s
      rw [e]
      split_ifs
      · exact ⟨_, rfl⟩
      · exact ih _ _
  exact hloop _ _ _

/-- The pin is the centroid of all vertices but the worst. -/
theorem pin_spec (env : Env K V) (s : NM K V) (hn : 2 ≤ env.num) : ((env.num - 1 : Nat) : K) • pin env s = ∑ k ∈ Finset.range (env.num - 1), s.e (s.index k) := by
  unfold pin
  rw [smul_smul, mul_inv_cancel₀ (by
    have : (env.num - 1 : Nat) ≠ 0 := by omega
    exact_mod_cast this), one_smul]
  have := forUp_inv (lo := 1) (hi := env.num) (fun i (p : V) => p + s.e (s.index (i - 1))) 0
    (fun k p => p = ∑ j ∈ Finset.range (k - 1), s.e (s.index j)) (by omega) (by simp)
    (by
      intro k p hk _ h
      rw [h, Nat.add_sub_cancel]
      conv_rhs => rw [show k = k - 1 + 1 by omega, Finset.sum_range_succ])
  exact this

/-- A sort as it is assumed exists. -/
def srtEx (num : Nat) (v : Nat → K) (idx : Nat → Nat) : Nat → Nat := fun k =>
  if h : k < num then idx (Tuple.sort (fun i : Fin num => v (idx i)) ⟨k, h⟩) else idx k

theorem srtEx_ok (f : V → K) (dist : V → V → K) (num : Nat) (tol : K) : SrtOk (⟨f, dist, srtEx num, num, tol⟩ : Env K V) := by
  intro v idx hp
  change IsPerm num idx at hp
  show IsPerm num (srtEx num v idx) ∧ Ascends num v (srtEx num v idx)
  have e : ∀ k (h : k < num), srtEx num v idx k = idx (Tuple.sort (fun i : Fin num => v (idx i)) ⟨k, h⟩) := fun k h => by unfold srtEx; rw [dif_pos h]
  refine ⟨⟨fun k hk => ?_, fun a b ha hb hab => ?_⟩, fun a b hab hb => ?_⟩
  · rw [e k hk]; exact hp.1 _ (Fin.is_lt _)
  · rw [e a ha, e b hb] at hab
    have := hp.2 _ _ (Fin.is_lt _) (Fin.is_lt _) hab
    have := (Tuple.sort (fun i : Fin num => v (idx i))).injective (Fin.ext this)
    simpa using this
  · rw [e a (by omega), e b hb]
    exact Tuple.monotone_sort (fun i : Fin num => v (idx i)) (show (⟨a, by omega⟩ : Fin num) ≤ ⟨b, hb⟩ from hab)

/-- Sort of an index of two. -/
def srt2 (v : Nat → ℚ) (idx : Nat → Nat) : Nat → Nat := if v (idx 1) < v (idx 0) then fun k => if k = 0 then idx 1 else if k = 1 then idx 0 else idx k else idx

/-- A run: the objective `|x - 3|` on the line from 0, the answer is 3. -/
example : (match zOptSolveNM (⟨fun x => |x - 3|, fun a b => a - b, srt2, 2, 1/10⟩ : Env ℚ ℚ) 10 0 (fun _ => 1) 20 with
    | .ok (some (i, x, v)) => decide (x = 3 ∧ v = 0 ∧ i = 6) | _ => false) = true := by decide +kernel

end Zm.NM
