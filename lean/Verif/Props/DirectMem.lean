import Verif.Model.DirectMem
import Verif.Props.Direct

/-! # C227: memory of the DIRECT method -/

set_option linter.unusedSectionVars false

namespace Zm.DirectMem
open Zm Direct

section
variable {K : Type*} [Field K] [LinearOrder K] [IsStrictOrderedRing K]

theorem divideLoopC_eq (lmax level : Nat) : ∀ (ps : List (Nat × Rect K × Rect K)) (target : Nat) (S : RSet K) (l : Int) (r : Rect K),
    divideLoopC lmax level ps target (S, l) r = (divideLoop lmax level ps target S r).bind fun T => .ok (T, l + 2 * ps.length + 1)
  | [], target, S, l, r => by simp [divideLoopC, divideLoop]
  | p :: ps, target, S, l, r => by
    simp only [divideLoopC, divideLoop]
    cases setInsert lmax S (if ps.isEmpty then target + 1 else target) { p.2.1 with level := set1 r.level p.1 (level+1) } with
    | ok T =>
      simp only [Res.bind]
      cases setInsert lmax T (if ps.isEmpty then target + 1 else target) { p.2.2 with level := set1 r.level p.1 (level+1) } with
      | ok T2 =>
        simp only []
        rw [divideLoopC_eq lmax level ps]
        congr 1
        funext T
        simp only [List.length_cons, Nat.cast_add, Nat.cast_one, Res.ok.injEq, Prod.mk.injEq, true_and]
        ring
      | fail => rfl
      | ub => rfl
    | fail => rfl
    | ub => rfl

theorem rectDivideC_eq (lmax n : Nat) (F : (Nat → K) → K) (level : Nat) (S : RSet K) (l : Int) (r : Rect K) :
    rectDivideC lmax n F level (S, l) r = (Direct.rectDivide lmax n F level S r).bind fun T => .ok (T, l + 5 * (points (patterns n F level r)).length + 1) := by
  unfold rectDivideC Direct.rectDivide
  simp only [divideLoopC_eq, rectBlocks, points_length]
  cases divideLoop lmax level (patterns n F level r) level S r with
  | ok T =>
    simp only [Res.bind, Res.ok.injEq, Prod.mk.injEq, true_and]
    push_cast
    ring
  | fail => rfl
  | ub => rfl

theorem patterns_length (n : Nat) (F : (Nat → K) → K) (level : Nat) (r : Rect K) : (patterns n F level r).length ≤ n := by
  obtain ⟨hn, _, hm⟩ := patterns_spec n F level r
  have : ((patterns n F level r).map (fun p => p.1)).length ≤ (List.range n).length := by
    apply List.Subperm.length_le
    apply List.subperm_of_subset hn
    intro i hi
    exact List.mem_range.2 ((hm i).1 hi).1
  simpa using this

/-- What a part of the run adds: five blocks for each point evaluated, and one for each division, of which each evaluates no more than twice as many points as there are directions. -/
def Adds (n : Nat) (log log' : List (Nat → K)) (l l' : Int) : Prop :=
  ∃ d : Nat, l' = l + 5 * ((log'.length : Int) - log.length) + d ∧ log.length ≤ log'.length ∧ log'.length - log.length ≤ 2 * n * d

theorem Adds.refl (n : Nat) (log : List (Nat → K)) (l : Int) : Adds n log log l l := ⟨0, by simp, le_refl _, by simp⟩

theorem Adds.trans {n : Nat} {a b c : List (Nat → K)} {x y z : Int} (h : Adds n a b x y) (k : Adds n b c y z) : Adds n a c x z := by
  obtain ⟨d, h1, h2, h3⟩ := h
  obtain ⟨e, k1, k2, k3⟩ := k
  refine ⟨d + e, ?_, by omega, ?_⟩
  · rw [k1, h1]; push_cast; ring
  · rw [Nat.mul_add]; omega

theorem porStep_none (lmax n : Nat) (F : (Nat → K) → K) (por : Nat → Option (Rect K)) (i : Nat) (S : RSet K × List (Nat → K)) (h : por i = none) :
    porStep lmax n F por i S = .ok S := by simp only [porStep, h]

theorem porStepC_none (lmax n : Nat) (F : (Nat → K) → K) (por : Nat → Option (Rect K)) (i : Nat) (S : (RSet K × List (Nat → K)) × Int) (h : por i = none) :
    porStepC lmax n F por i S = .ok S := by simp only [porStepC, h]

theorem porStep_some (lmax n : Nat) (F : (Nat → K) → K) (por : Nat → Option (Rect K)) (i : Nat) (S : RSet K) (log : List (Nat → K)) (r : Rect K) (h : por i = some r) :
    porStep lmax n F por i (S, log) = (Direct.rectDivide lmax n F i S r).bind fun T => .ok (T, log ++ points (patterns n F i r)) := by simp only [porStep, h]

theorem porStepC_some (lmax n : Nat) (F : (Nat → K) → K) (por : Nat → Option (Rect K)) (i : Nat) (S : RSet K) (log : List (Nat → K)) (l : Int) (r : Rect K) (h : por i = some r) :
    porStepC lmax n F por i ((S, log), l) = (Direct.rectDivide lmax n F i S r).bind fun T => .ok ((T, log ++ points (patterns n F i r)), l + 5 * (points (patterns n F i r)).length + 1) := by
  simp only [porStepC, h, rectDivideC_eq]
  cases Direct.rectDivide lmax n F i S r <;> rfl

theorem porLoopC (lmax n : Nat) (F : (Nat → K) → K) (por : Nat → Option (Rect K)) : ∀ (k lo : Nat) (S : RSet K) (log : List (Nat → K)) (l : Int) (T : RSet K) (log' : List (Nat → K)),
    lo + k = lmax → forUpM lo lmax (porStep lmax n F por) (S, log) = .ok (T, log') →
    ∃ l', forUpM lo lmax (porStepC lmax n F por) ((S, log), l) = .ok ((T, log'), l') ∧ Adds n log log' l l' := by
  intro k
  induction k with
  | zero =>
    intro lo S log l T log' hk h
    rw [forUpM_nil (by omega)] at h ⊢
    simp only [Res.ok.injEq, Prod.mk.injEq] at h
    obtain ⟨rfl, rfl⟩ := h
    exact ⟨l, rfl, Adds.refl n log l⟩
  | succ k ih =>
    intro lo S log l T log' hk h
    rw [forUpM_cons (by omega)] at h ⊢
    cases hp : por lo with
    | none =>
      rw [porStep_none _ _ _ _ _ _ hp] at h
      rw [porStepC_none _ _ _ _ _ _ hp]
      exact ih (lo+1) S log l T log' (by omega) h
    | some r =>
      rw [porStep_some _ _ _ _ _ _ _ r hp] at h
      rw [porStepC_some _ _ _ _ _ _ _ _ r hp]
      cases hr : Direct.rectDivide lmax n F lo S r with
      | ok T1 =>
        rw [hr] at h
        simp only [Res.bind] at h ⊢
        obtain ⟨l', e, ha⟩ := ih (lo+1) T1 (log ++ points (patterns n F lo r)) (l + 5 * (points (patterns n F lo r)).length + 1) T log' (by omega) h
        refine ⟨l', e, Adds.trans ⟨1, ?_, by simp, ?_⟩ ha⟩
        · rw [List.length_append]; push_cast; ring
        · rw [List.length_append, points_length]
          have := patterns_length n F lo r
          omega
      | fail => rw [hr] at h; simp [Res.bind] at h
      | ub => rw [hr] at h; simp [Res.bind] at h

theorem solveLoopC_spec (lmax n : Nat) (F : (Nat → K) → K) : ∀ (k i ml : Nat) (S : RSet K) (log : List (Nat → K)) (l : Int) (E : Ended K),
    solveLoop lmax n F k i ml (S, log) = .ok E → ∃ l', solveLoopC lmax n F k i ml ((S, log), l) = .ok (E, l') ∧ Adds n log E.log l l' := by
  intro k
  induction k with
  | zero =>
    intro i ml S log l E h
    simp only [solveLoop, Res.ok.injEq] at h
    subst h
    exact ⟨l, rfl, Adds.refl n log l⟩
  | succ k ih =>
    intro i ml S log l E h
    simp only [solveLoop] at h
    simp only [solveLoopC]
    cases h1 : findMin lmax S with
    | ok m =>
      rw [h1] at h
      simp only [Res.bind] at h ⊢
      by_cases hm : m.2 = lmax
      · rw [if_pos hm] at h ⊢
        simp only [Res.ok.injEq] at h
        subst h
        exact ⟨l, rfl, Adds.refl n log l⟩
      · rw [if_neg hm] at h ⊢
        cases h2 : firstNonempty S (lmax+1) 0 with
        | ok i0 =>
          rw [h2] at h
          simp only [] at h ⊢
          cases h3 : identLoop S (fun _ => none) m.2 (lmax+1) i0 with
          | ok sp =>
            rw [h3] at h
            simp only [] at h ⊢
            cases h4 : porDivide lmax n F sp.2 (sp.1, log) with
            | ok Q =>
              rw [h4] at h
              simp only [] at h
              obtain ⟨l1, e1, a1⟩ := porLoopC lmax n F sp.2 lmax 0 sp.1 log l Q.1 Q.2 (by omega) h4
              obtain ⟨l2, e2, a2⟩ := ih (i+1) m.2 Q.1 Q.2 l1 E h
              refine ⟨l2, ?_, a1.trans a2⟩
              unfold porDivideC
              rw [e1]
              exact e2
            | fail => rw [h4] at h; simp at h
            | ub => rw [h4] at h; simp at h
          | fail => rw [h3] at h; simp at h
          | ub => rw [h3] at h; simp at h
        | fail => rw [h2] at h; simp at h
        | ub => rw [h2] at h; simp at h
    | fail => rw [h1] at h; simp [Res.bind] at h
    | ub => rw [h1] at h; simp [Res.bind] at h

theorem setFree_eq (lmax : Nat) (S : RSet K) (l : Int) : setFree lmax S l = l - 5 * (Multiset.card (bag lmax S) : Int) := by
  unfold setFree bag rectBlocks
  have : ∀ k, forUp 0 k (fun i l => l - (4 + 1) * ((S i).length : Int)) l =
      l - 5 * ((Multiset.card (∑ j ∈ Finset.range k, ((S j : List (Rect K)) : Multiset (Rect K))) : Nat) : Int) := by
    intro k
    induction k with
    | zero => simp [forUp, forN]
    | succ k ih =>
      rw [forUp_succ (Nat.zero_le _), ih, Finset.sum_range_succ, Multiset.card_add, Multiset.coe_card]
      push_cast
      ring
  exact this (lmax+1)

/-- **C227.** Where every allocation succeeds, the search with the blocks gives the same answer; what it leaves behind is one block for each region that it divided, so at least one for as many
points as twice the number of variables. -/
theorem zOptSolveDIRECT_blocks (f : (Nat → K) → K) (min max : Nat → K) (n lmax : Nat) (iter : Int) (live : Int) (A : Answer K)
    (hA : zOptSolveDIRECT f min max n lmax iter = .ok A) :
    ∃ d : Nat, zOptSolveDIRECT_C f min max n lmax iter live = .ok (A, live + d) ∧ A.log.length - 1 ≤ 2 * n * d := by
  obtain ⟨E, e, hI, _, _, _, _⟩ := run_spec f min max n lmax iter
  unfold zOptSolveDIRECT at hA
  rw [e] at hA
  simp only [Res.bind] at hA
  have hlog : A.log = E.log := by
    unfold answer at hA
    split at hA
    · simp at hA
    · simp only [Res.ok.injEq] at hA; rw [← hA]
  have hc : Multiset.card (bag lmax E.set) = E.log.length := by
    have := congrArg Multiset.card hI.log
    rwa [Multiset.card_map, Multiset.coe_card] at this
  obtain ⟨l', e', d, h1, h2, h3⟩ := solveLoopC_spec lmax n (scaled f min max) (iterOf iter) 0 0 _ _ (live + 1 + 1 + rectBlocks + 1) E e
  refine ⟨d, ?_, by rw [hlog]; simpa using h3⟩
  unfold zOptSolveDIRECT_C
  rw [e']
  simp only [Res.bind, hA, setFree_eq, hc, Res.ok.injEq, Prod.mk.injEq, true_and]
  rw [h1]
  simp only [rectBlocks, List.length_singleton]
  push_cast
  ring

/-- **C227, violated.** Every search that evaluates the objective more than once leaves memory behind, although all allocations succeed. -/
theorem zOptSolveDIRECT_leak_violated (f : (Nat → K) → K) (min max : Nat → K) (n lmax : Nat) (iter : Int) (live : Int) (A : Answer K)
    (hA : zOptSolveDIRECT f min max n lmax iter = .ok A) (h : 1 < A.log.length) :
    ∃ l', zOptSolveDIRECT_C f min max n lmax iter live = .ok (A, l') ∧ live < l' := by
  obtain ⟨d, e, hd⟩ := zOptSolveDIRECT_blocks f min max n lmax iter live A hA
  refine ⟨_, e, ?_⟩
  have : d ≠ 0 := by
    rintro rfl
    simp at hd
    omega
  omega

/-- A search in two variables with one division. -/
example : (match zOptSolveDIRECT_C (fun x : Nat → ℚ => x 0 * x 0 + x 1 * x 1) (fun _ => -1) (fun _ => 1) 2 3 1 0 with
    | .ok (A, l) => decide (A.log.length = 5 ∧ l = 1)
    | _ => false) = true := by decide +kernel

example : (match zOptSolveDIRECT_C (fun x : Nat → ℚ => (x 0 - 1/3) * (x 0 - 1/3) + x 1 * x 1) (fun _ => -1) (fun _ => 2) 2 3 4 0 with
    | .ok (A, l) => decide (1 < A.log.length ∧ 4 ≤ l)
    | _ => false) = true := by decide +kernel

end

/-! ## One division with failing allocations -/

/-- The regions of a pattern. -/
def regs (pat : List (Nat × Nat)) : List Nat := pat.flatMap fun p => [p.1, p.2]

/-- The cells and the regions of a part of the set. -/
def blocks (set : List (Nat × Nat)) : List Nat := set.flatMap fun p => [p.1, p.2]

theorem free_ok (h : Hp) (p : Nat) (R : List Nat) (hp : h.live.Perm (p :: R)) : ∃ h', free h p = .ok h' ∧ h'.live.Perm R ∧ h'.t = h.t := by
  refine ⟨{ h with live := h.live.erase p }, ?_, ?_, rfl⟩
  · unfold free; rw [if_pos (hp.mem_iff.2 (by simp))]
  · have := hp.erase p
    simpa using this

theorem freeAll_ok : ∀ (ps : List Nat) (h : Hp) (R : List Nat), h.live.Perm (ps ++ R) → ∃ h', freeAll ps h = .ok h' ∧ h'.live.Perm R
  | [], h, R, hp => ⟨h, rfl, hp⟩
  | p :: ps, h, R, hp => by
    obtain ⟨h1, e1, p1, _⟩ := free_ok h p (ps ++ R) hp
    obtain ⟨h2, e2, p2⟩ := freeAll_ok ps h1 R p1
    exact ⟨h2, by simp [freeAll, e1, e2, Res.bind], p2⟩

theorem alloc_some (avail : Nat → Bool) (h : Hp) (p : Nat) (e : (alloc avail h).1 = some p) : (alloc avail h).2.live = p :: h.live := by
  unfold alloc at e ⊢
  split
  · rw [if_pos ‹_›] at e; simp only [Option.some.injEq] at e; simp [e]
  · rw [if_neg ‹_›] at e; simp at e

theorem alloc_none (avail : Nat → Bool) (h : Hp) (e : (alloc avail h).1 = none) : (alloc avail h).2.live = h.live := by
  unfold alloc at e ⊢
  split
  · rw [if_pos ‹_›] at e; simp at e
  · rfl

theorem alloc_sub (avail : Nat → Bool) (h : Hp) : ∃ L, (alloc avail h).2.live = L ++ h.live := by
  unfold alloc
  split
  · exact ⟨[h.next], rfl⟩
  · exact ⟨[], rfl⟩

theorem createLoop_spec (avail : Nat → Bool) : ∀ (k : Nat) (pat : List (Nat × Nat)) (idx : List Nat) (h : Hp) (R : List Nat),
    h.live.Perm (idx ++ (regs pat ++ R)) →
    ∃ lost, (createLoop avail k pat idx h).2.2.2.live.Perm ((createLoop avail k pat idx h).2.2.1 ++ (regs (createLoop avail k pat idx h).2.1 ++ (lost ++ R))) ∧
      ((createLoop avail k pat idx h).1 = true → lost = [] ∧ (createLoop avail k pat idx h).2.1.length = pat.length + k)
  | 0, pat, idx, h, R, hp => ⟨[], by simpa [createLoop] using hp, by simp [createLoop]⟩
  | k+1, pat, idx, h, R, hp => by
    cases ha : (alloc avail h).1 with
    | none =>
      have h1 := alloc_none avail h ha
      obtain ⟨L, h2⟩ := alloc_sub avail (alloc avail h).2
      have e : createLoop avail (k+1) pat idx h = (false, pat, idx, (alloc avail (alloc avail h).2).2) := by
        simp only [createLoop, ha]
      rw [e]
      refine ⟨L, ?_, by simp⟩
      simp only [h2, h1]
      refine (List.Perm.append_left L hp).trans ?_
      rw [← List.append_assoc, ← List.append_assoc, ← List.append_assoc, ← List.append_assoc]
      refine List.Perm.append_right R ?_
      refine (List.append_assoc L idx (regs pat)).symm ▸ ?_
      exact List.perm_append_comm
    | some p =>
      have h1 := alloc_some avail h p ha
      cases hb : (alloc avail (alloc avail h).2).1 with
      | none =>
        have h2 := alloc_none avail _ hb
        have e : createLoop avail (k+1) pat idx h = (false, pat, idx, (alloc avail (alloc avail h).2).2) := by
          simp only [createLoop, ha, hb]
        rw [e]
        refine ⟨[p], ?_, by simp⟩
        simp only [h2, h1]
        refine (List.Perm.cons p hp).trans ?_
        have : (idx ++ (regs pat ++ ([p] ++ R))) = ((idx ++ regs pat) ++ p :: R) := by simp
        rw [this, ← List.append_assoc]
        exact List.perm_middle.symm
      | some q =>
        have h2 := alloc_some avail _ q hb
        cases hc : (alloc avail (alloc avail (alloc avail h).2).2).1 with
        | none =>
          have h3 := alloc_none avail _ hc
          have e : createLoop avail (k+1) pat idx h = (false, pat ++ [(p, q)], idx, (alloc avail (alloc avail (alloc avail h).2).2).2) := by
            simp only [createLoop, ha, hb, hc]
          rw [e]
          refine ⟨[], ?_, by simp⟩
          simp only [h3, h2, h1, List.nil_append]
          refine ((hp.cons p).cons q).trans ?_
          have : (idx ++ (regs (pat ++ [(p, q)]) ++ R)) = ((idx ++ regs pat) ++ p :: q :: R) := by simp [regs]
          rw [this, ← List.append_assoc]
          refine List.Perm.trans (List.Perm.swap _ _ _) ?_
          exact ((List.perm_middle (a := q)).symm.cons p).trans (List.perm_middle (a := p)).symm
        | some i =>
          have h3 := alloc_some avail _ i hc
          have e : createLoop avail (k+1) pat idx h = createLoop avail k (pat ++ [(p, q)]) (idx ++ [i]) (alloc avail (alloc avail (alloc avail h).2).2).2 := by
            simp only [createLoop, ha, hb, hc]
          have hp' : (alloc avail (alloc avail (alloc avail h).2).2).2.live.Perm ((idx ++ [i]) ++ (regs (pat ++ [(p, q)]) ++ R)) := by
            rw [h3, h2, h1]
            refine (((hp.cons p).cons q).cons i).trans ?_
            have : ((idx ++ [i]) ++ (regs (pat ++ [(p, q)]) ++ R)) = (idx ++ i :: (regs pat ++ p :: q :: R)) := by simp [regs]
            rw [this]
            refine List.Perm.trans ?_ (List.perm_middle (a := i)).symm
            refine List.Perm.cons i ?_
            rw [← List.append_assoc, ← List.append_assoc]
            refine List.Perm.trans (List.Perm.swap _ _ _) ?_
            exact ((List.perm_middle (a := q)).symm.cons p).trans (List.perm_middle (a := p)).symm
          obtain ⟨lost, x1, x2⟩ := createLoop_spec avail k (pat ++ [(p, q)]) (idx ++ [i]) _ R hp'
          rw [e]
          refine ⟨lost, x1, fun ht => ⟨(x2 ht).1, ?_⟩⟩
          rw [(x2 ht).2]; simp; omega

theorem insertLoop_spec (avail : Nat → Bool) : ∀ (pat set : List (Nat × Nat)) (h : Hp) (R : List Nat), h.live.Perm (regs pat ++ R) →
    (∃ X, (insertLoop avail pat set h).2.2.2.live.Perm (regs (insertLoop avail pat set h).2.1 ++ (X ++ R))) ∧
    ((insertLoop avail pat set h).1 = true → (insertLoop avail pat set h).2.1 = [] ∧
      ∃ new, (insertLoop avail pat set h).2.2.1 = set ++ new ∧ new.map (·.2) = regs pat ∧ (insertLoop avail pat set h).2.2.2.live.Perm (blocks new ++ R))
  | [], set, h, R, hp => ⟨⟨[], by simpa [insertLoop] using hp⟩, fun _ => ⟨rfl, [], by simp [insertLoop], rfl, by simpa [insertLoop, blocks, regs] using hp⟩⟩
  | (p, q) :: pat, set, h, R, hp => by
    cases ha : (alloc avail h).1 with
    | none =>
      have h1 := alloc_none avail h ha
      have e : insertLoop avail ((p, q) :: pat) set h = (false, (p, q) :: pat, set, (alloc avail h).2) := by simp only [insertLoop, ha]
      rw [e]
      exact ⟨⟨[], by simpa [h1] using hp⟩, by simp⟩
    | some c =>
      have h1 := alloc_some avail h c ha
      cases hb : (alloc avail (alloc avail h).2).1 with
      | none =>
        have h2 := alloc_none avail _ hb
        have e : insertLoop avail ((p, q) :: pat) set h = (false, (p, q) :: pat, set ++ [(c, p)], (alloc avail (alloc avail h).2).2) := by simp only [insertLoop, ha, hb]
        rw [e]
        refine ⟨⟨[c], ?_⟩, by simp⟩
        simp only [h2, h1]
        exact (hp.cons c).trans (List.perm_middle (a := c)).symm
      | some d =>
        have h2 := alloc_some avail _ d hb
        have e : insertLoop avail ((p, q) :: pat) set h = insertLoop avail pat (set ++ [(c, p), (d, q)]) (alloc avail (alloc avail h).2).2 := by simp only [insertLoop, ha, hb]
        have hp' : (alloc avail (alloc avail h).2).2.live.Perm (regs pat ++ ([c, p, d, q] ++ R)) := by
          rw [h2, h1]
          refine ((hp.cons c).cons d).trans ?_
          have e1 : regs ((p, q) :: pat) ++ R = [p, q] ++ (regs pat ++ R) := by simp [regs]
          rw [e1]
          have e2 : (d :: c :: ([p, q] ++ (regs pat ++ R))) = [d, c, p, q] ++ (regs pat ++ R) := rfl
          rw [e2]
          refine List.Perm.trans (l₂ := [c, p, d, q] ++ (regs pat ++ R)) (List.Perm.append_right _ ?_) ?_
          · exact (List.Perm.swap c d [p, q]).trans ((List.Perm.swap p d [q]).cons c)
          · rw [← List.append_assoc, ← List.append_assoc]
            exact List.Perm.append_right R List.perm_append_comm
        obtain ⟨⟨X, x1⟩, x2⟩ := insertLoop_spec avail pat (set ++ [(c, p), (d, q)]) _ _ hp'
        rw [e]
        refine ⟨⟨X ++ [c, p, d, q], by simpa using x1⟩, fun ht => ?_⟩
        obtain ⟨y1, new, y2, y3, y4⟩ := x2 ht
        refine ⟨y1, [(c, p), (d, q)] ++ new, by rw [y2]; simp, by simp [y3, regs], ?_⟩
        refine y4.trans ?_
        have : blocks ([(c, p), (d, q)] ++ new) ++ R = [c, p, d, q] ++ (blocks new ++ R) := by simp [blocks]
        rw [this, ← List.append_assoc, ← List.append_assoc]
        exact List.Perm.append_right R List.perm_append_comm

theorem finish_ok (arr : Nat) (idx : List Nat) (pat : List (Nat × Nat)) (h : Hp) (R : List Nat) (hp : h.live.Perm (idx ++ (regs pat ++ (arr :: R)))) :
    ∃ h', finish arr idx pat h = .ok h' ∧ h'.live.Perm R := by
  obtain ⟨h1, e1, p1⟩ := freeAll_ok idx h _ hp
  obtain ⟨h2, e2, p2⟩ := freeAll_ok (regs pat) h1 _ p1
  obtain ⟨h3, e3, p3, _⟩ := free_ok h2 arr R p2
  refine ⟨h3, ?_, p3⟩
  unfold finish
  rw [e1]
  simp only [Res.bind]
  rw [show (pat.flatMap fun p => [p.1, p.2]) = regs pat from rfl, e2]
  exact e3

/-- **C227.** Whatever allocations fail, a division releases nothing that is not live; and where it reports success, the set has got the region itself and two more for each direction, and
exactly the blocks of these entries (but the region, which was there) are new. -/
theorem rectDivide_spec (avail : Nat → Bool) (k rect : Nat) (set : List (Nat × Nat)) (h : Hp) :
    ∃ r, rectDivide avail k rect set h = .ok r ∧ (∃ X, r.2.2.live.Perm (X ++ h.live)) ∧
      (r.1 = true → ∃ new cell, r.2.1 = set ++ new ++ [(cell, rect)] ∧ new.length = 2 * k ∧ r.2.2.live.Perm (blocks new ++ cell :: h.live)) := by
  cases ha : (alloc avail h).1 with
  | none =>
    refine ⟨(false, set, (alloc avail h).2), by simp only [rectDivide, ha], ⟨[], ?_⟩, by simp⟩
    simp [alloc_none avail h ha]
  | some arr =>
    have h1 := alloc_some avail h arr ha
    obtain ⟨lost, c1, c2⟩ := createLoop_spec avail k [] [] (alloc avail h).2 (arr :: h.live) (by simp [regs, h1])
    set c := createLoop avail k [] [] (alloc avail h).2 with hc
    cases hok : c.1 with
    | false =>
      obtain ⟨h', e, p⟩ := finish_ok arr c.2.2.1 c.2.1 c.2.2.2 (lost ++ h.live) (c1.trans (by
        refine List.Perm.append_left _ (List.Perm.append_left _ ?_)
        exact List.perm_middle))
      refine ⟨(false, set, h'), ?_, ⟨lost, p⟩, by simp⟩
      simp only [rectDivide, ha, ← hc, hok, Bool.not_false, if_true, e, Res.bind]
    | true =>
      obtain ⟨rfl, hlen⟩ := c2 hok
      have hp : c.2.2.2.live.Perm (regs c.2.1 ++ (c.2.2.1 ++ arr :: h.live)) := by
        refine c1.trans ?_
        simp only [List.nil_append]
        rw [← List.append_assoc, ← List.append_assoc]
        exact List.Perm.append_right _ List.perm_append_comm
      obtain ⟨⟨X, i1⟩, i2⟩ := insertLoop_spec avail c.2.1 set c.2.2.2 _ hp
      set i := insertLoop avail c.2.1 set c.2.2.2 with hi
      cases hok2 : i.1 with
      | false =>
        obtain ⟨h', e, p⟩ := finish_ok arr c.2.2.1 i.2.1 i.2.2.2 (X ++ h.live) (i1.trans (by
          have hh : (X ++ (c.2.2.1 ++ arr :: h.live)).Perm (c.2.2.1 ++ arr :: (X ++ h.live)) := by
            refine List.Perm.trans (l₂ := c.2.2.1 ++ (X ++ arr :: h.live)) ?_ (List.Perm.append_left _ List.perm_middle)
            rw [← List.append_assoc, ← List.append_assoc]
            exact List.Perm.append_right _ List.perm_append_comm
          refine (List.Perm.append_left _ hh).trans ?_
          rw [← List.append_assoc, ← List.append_assoc]
          exact List.Perm.append_right _ List.perm_append_comm))
        refine ⟨(false, i.2.2.1, h'), ?_, ⟨X, p⟩, by simp⟩
        simp only [rectDivide, ha, ← hc, hok, Bool.not_true, Bool.false_eq_true, if_false, ← hi, hok2, Bool.not_false, if_true, e, Res.bind]
      | true =>
        obtain ⟨i3, new, i4, i5, i6⟩ := i2 hok2
        have hnew : new.length = 2 * k := by
          have : (new.map (·.2)).length = (regs c.2.1).length := by rw [i5]
          rw [List.length_map] at this
          have hr : ∀ l : List (Nat × Nat), (regs l).length = 2 * l.length := by
            intro l
            induction l with
            | nil => rfl
            | cons a l ih => simp only [regs, List.flatMap_cons, List.length_append, List.length_cons, List.length_nil] at ih ⊢; omega
          rw [this, hr, hlen]; simp
        have hq : ∀ Y : List Nat, (blocks new ++ (c.2.2.1 ++ arr :: Y)).Perm (c.2.2.1 ++ (regs [] ++ arr :: (blocks new ++ Y))) := by
          intro Y
          refine List.Perm.trans (l₂ := c.2.2.1 ++ (blocks new ++ arr :: Y)) ?_ (List.Perm.append_left _ List.perm_middle)
          rw [← List.append_assoc, ← List.append_assoc]
          exact List.Perm.append_right _ List.perm_append_comm
        cases hb : (alloc avail i.2.2.2).1 with
        | none =>
          have h2 := alloc_none avail _ hb
          obtain ⟨h', e, p⟩ := finish_ok arr c.2.2.1 i.2.1 (alloc avail i.2.2.2).2 (blocks new ++ h.live) (by
            rw [h2, i3]; exact i6.trans (hq _))
          refine ⟨(false, i.2.2.1, h'), ?_, ⟨blocks new, p⟩, by simp⟩
          simp only [rectDivide, ha, ← hc, hok, Bool.not_true, Bool.false_eq_true, if_false, ← hi, hok2, hb, e, Res.bind]
        | some cell =>
          have h2 := alloc_some avail _ cell hb
          obtain ⟨h', e, p⟩ := finish_ok arr c.2.2.1 i.2.1 (alloc avail i.2.2.2).2 (blocks new ++ cell :: h.live) (by
            rw [h2, i3]
            refine (i6.cons cell).trans ?_
            refine List.Perm.trans ?_ (hq _)
            refine List.Perm.trans (List.perm_middle (a := cell)).symm (List.Perm.append_left _ ?_)
            refine List.Perm.trans (List.perm_middle (a := cell)).symm (List.Perm.append_left _ ?_)
            exact List.Perm.swap _ _ _)
          refine ⟨(true, i.2.2.1 ++ [(cell, rect)], h'), ?_, ⟨blocks new ++ [cell], by simpa using p⟩, fun _ => ⟨new, cell, by rw [i4], hnew, p⟩⟩
          simp only [rectDivide, ha, ← hc, hok, Bool.not_true, Bool.false_eq_true, if_false, ← hi, hok2, hb, e, Res.bind]

/-- Two directions, everything allocated. -/
example : (match rectDivide (fun _ => true) 2 100 [] ⟨0, 0, [100]⟩ with
    | .ok r => decide (r.1 = true ∧ r.2.1.length = 5 ∧ r.2.2.live.length = 10)
    | _ => false) = true := by decide +kernel

/-- **C227, violated.** When the cell for the second region of a direction cannot be allocated, the first one is released although it is in the set: destroying the set then releases it again. -/
theorem rectDivide_dangling_violated :
    (match rectDivide (fun t => t != 5) 1 100 [] ⟨0, 0, [100]⟩ with
      | .ok r => decide (r.1 = false ∧ r.2.1 = [(4, 1)] ∧ 1 ∉ r.2.2.live) && (match setDestroy r.2.1 r.2.2 with | .ub => true | _ => false)
      | _ => false) = true := by decide +kernel

/-- **C227, violated.** When the second region of a direction cannot be allocated, the first one is lost: it is live and in no list. -/
theorem rectDivide_lost_violated :
    (match rectDivide (fun t => t != 2) 1 100 [] ⟨0, 0, [100]⟩ with
      | .ok r => decide (r.1 = false ∧ r.2.1 = [] ∧ r.2.2.live = [1, 100])
      | _ => false) = true := by decide +kernel

end Zm.DirectMem
