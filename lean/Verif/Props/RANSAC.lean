import Verif.Model.RANSAC
import Mathlib.Algebra.Field.Rat
import Mathlib.Algebra.Order.Ring.Rat
import Mathlib.Data.List.Perm.Basic
import Mathlib.Data.List.Count
import Mathlib.Tactic.Linarith

/-!
# Random sample consensus

C67: the samples are only rearranged, and the model kept has the most inliers of all the trials, for every sequence of random numbers.
-/

set_option linter.unusedSectionVars false

namespace Zm.RANSAC

variable {K P Q : Type*} [Field K] [LinearOrder K]

/-- Specification: the inliers of a model among samples. -/
def inliers (err : Q → P → K) (th : K) (q : Q) (l : List P) : List P := l.filter fun p => decide (|err q p| < th)

/-- Specification: the random numbers lie in the range asked for. -/
def InRange (rnd : Nat → Nat → Nat) : Prop := ∀ k m, 0 < m → rnd k m < m

theorem countInlier_eq (err : Q → P → K) (th : K) (q : Q) (l : List P) (c : Nat) : countInlier err th q l c = c + (inliers err th q l).length := by
  induction l generalizing c with
  | nil => rfl
  | cons p l ih =>
    unfold countInlier
    rw [ih]
    by_cases h : |err q p| < th <;> simp [inliers, h] <;> omega

theorem inliers_perm (err : Q → P → K) (th : K) (q : Q) {l l' : List P} (h : l.Perm l') : (inliers err th q l).Perm (inliers err th q l') := h.filter _

theorem selectLoop_spec (rnd : Nat → Nat → Nat) (hr : InRange rnd) (n k : Nat) (sample sel : List P) (h : n ≤ sample.length) :
    ∃ rest sel' k', selectLoop rnd n k sample sel = .ok (rest, sel', k') ∧ (sel' ++ rest).Perm (sel ++ sample) ∧ sel'.length = sel.length + n := by
  induction n generalizing k sample sel with
  | zero => exact ⟨_, _, _, rfl, List.Perm.refl _, rfl⟩
  | succ n ih =>
    have hi := hr k sample.length (by omega)
    unfold selectLoop
    rw [List.getElem?_eq_getElem hi]
    obtain ⟨rest, sel', k', e, hp, hl⟩ := ih (k+1) (sample.eraseIdx (rnd k sample.length)) (sample[rnd k sample.length] :: sel)
      (by rw [List.length_eraseIdx_of_lt hi]; omega)
    refine ⟨rest, sel', k', e, hp.trans ?_, by rw [hl]; simp; omega⟩
    have h1 : (sample[rnd k sample.length] :: sample.eraseIdx (rnd k sample.length)).Perm sample := List.getElem_cons_eraseIdx_perm hi
    calc (sample[rnd k sample.length] :: sel ++ sample.eraseIdx (rnd k sample.length)).Perm (sel ++ (sample[rnd k sample.length] :: sample.eraseIdx (rnd k sample.length))) :=
          List.perm_middle.symm
      _ |>.Perm _ := h1.append_left sel

theorem selectRandom_spec (rnd : Nat → Nat → Nat) (hr : InRange rnd) (n : Int) (k : Nat) (sample : List P) :
    (n ≤ sample.length → ∃ rest sel k', selectRandom rnd n k sample = .ok (rest, sel, k') ∧ (sel ++ rest).Perm sample ∧ sel.length = n.toNat) ∧
    ((sample.length : Int) < n → selectRandom rnd n k sample = .fail) := by
  unfold selectRandom
  refine ⟨fun h => ?_, fun h => if_pos h⟩
  rw [if_neg (by omega)]
  obtain ⟨rest, sel, k', e, hp, hl⟩ := selectLoop_spec rnd hr n.toNat k sample [] (by omega)
  exact ⟨rest, sel, k', e, by simpa using hp, by simpa using hl⟩

theorem selectInlier_spec (err : Q → P → K) (th : K) (q : Q) (l stay inl : List P) :
    selectInlier err th q l stay inl = (stay.reverse ++ l.filter (fun p => decide (¬ |err q p| < th)), (inliers err th q l).reverse ++ inl) := by
  induction l generalizing stay inl with
  | nil => simp [selectInlier, inliers]
  | cons p l ih =>
    unfold selectInlier
    by_cases h : |err q p| < th
    · rw [if_pos h, ih]; simp [inliers, h, not_le.2 h]
    · rw [if_neg h, ih]; simp [inliers, h, not_lt.1 h]

/-- Specification: a history of trials.  From the scratch vector `qt`, each trial fits the model to a selection of `ns` samples; the models are listed in order. -/
inductive Tried (fit : Q → List P → Q) (ns : Nat) (sample : List P) : Q → List Q → Prop
  | nil (qt) : Tried fit ns sample qt []
  | cons (qt) (sel : List P) (cands) : sel.length = ns → (∃ rest, (sel ++ rest).Perm sample) → Tried fit ns sample (fit qt sel) cands → Tried fit ns sample qt (fit qt sel :: cands)

/-- Specification: `q'` is the first of the models with the most inliers, or `q` when none has more than `c`. -/
def Kept (cnt : Q → Nat) (q : Q) (c : Nat) (cands : List Q) (q' : Q) : Prop :=
  (q' = q ∧ ∀ x ∈ cands, cnt x ≤ c) ∨
  ∃ l r, cands = l ++ q' :: r ∧ c < cnt q' ∧ (∀ x ∈ l, cnt x < cnt q') ∧ ∀ x ∈ r, cnt x ≤ cnt q'

theorem trials_spec (rnd : Nat → Nat → Nat) (hr : InRange rnd) (fit : Q → List P → Q) (err : Q → P → K) (ns : Int) (th : K) (sample : List P) (hn : ns ≤ sample.length)
    (nt : Nat) (s : St P Q) (hs : s.sample.Perm sample) :
    ∃ s' cands, trials rnd fit err ns th nt s = .ok s' ∧ s'.sample.Perm sample ∧ cands.length = nt ∧ Tried fit ns.toNat sample s.qt cands ∧
      Kept (fun x => (inliers err th x sample).length) s.q s.count cands s'.q := by
  induction nt generalizing s with
  | zero => exact ⟨s, [], rfl, hs, rfl, .nil _, .inl ⟨rfl, by simp⟩⟩
  | succ nt ih =>
    obtain ⟨rest, sel, k', e, hp, hl⟩ := (selectRandom_spec rnd hr ns s.k s.sample).1 (by rw [hs.length_eq]; exact hn)
    have hp' := hp.trans hs
    have hc : countInlier err th (fit s.qt sel) (sel ++ rest) 0 = (inliers err th (fit s.qt sel) sample).length := by
      rw [countInlier_eq, zero_add]; exact (inliers_perm err th _ hp').length_eq
    unfold trials
    rw [e]
    dsimp only
    rw [hc]
    by_cases h : (inliers err th (fit s.qt sel) sample).length > s.count
    · rw [if_pos h]
      obtain ⟨s', cands, e', hs', hlen, ht, hk⟩ := ih ⟨sel ++ rest, fit s.qt sel, fit s.qt sel, (inliers err th (fit s.qt sel) sample).length, k'⟩ hp'
      refine ⟨s', fit s.qt sel :: cands, e', hs', by simp [hlen], .cons _ _ _ hl ⟨rest, hp'⟩ ht, ?_⟩
      rcases hk with ⟨a, b⟩ | ⟨l, r, a, b, c, d⟩
      · exact .inr ⟨[], cands, by rw [a]; rfl, by rw [a]; exact h, by simp, by rw [a]; exact b⟩
      · refine .inr ⟨fit s.qt sel :: l, r, by rw [a]; rfl, lt_trans h b, ?_, d⟩
        intro x hx
        rcases List.mem_cons.1 hx with hx | hx
        · rw [hx]; exact b
        · exact c x hx
    · rw [if_neg h]
      obtain ⟨s', cands, e', hs', hlen, ht, hk⟩ := ih ⟨sel ++ rest, s.q, fit s.qt sel, s.count, k'⟩ hp'
      refine ⟨s', fit s.qt sel :: cands, e', hs', by simp [hlen], .cons _ _ _ hl ⟨rest, hp'⟩ ht, ?_⟩
      rcases hk with ⟨a, b⟩ | ⟨l, r, a, b, c, d⟩
      · refine .inl ⟨a, ?_⟩
        intro x hx
        rcases List.mem_cons.1 hx with hx | hx
        · rw [hx]; exact not_lt.1 h
        · exact b x hx
      · refine .inr ⟨fit s.qt sel :: l, r, by rw [a]; rfl, b, ?_, d⟩
        intro x hx
        rcases List.mem_cons.1 hx with hx | hx
        · rw [hx]; exact lt_of_le_of_lt (not_lt.1 h) b
        · exact c x hx

/-- C67, with the inliers kept apart: for every sequence of random numbers the inliers and the rest together rearrange the samples; the inliers are exactly the samples within
twice the threshold of the model kept, which is the first of the trials with the most samples within the threshold (the given one if no trial has any); the result is the fit to
them. -/
theorem zRANSACSaveInlier_spec (rnd : Nat → Nat → Nat) (hr : InRange rnd) (fit : Q → List P → Q) (err : Q → P → K) (z : Q) (ns nt : Int) (th : K) (q : Q) (sample : List P)
    (hn : ns ≤ sample.length) :
    ∃ q' cands stay inl, zRANSACSaveInlier rnd fit err z ns nt th q sample = .ok (fit q' inl, stay, inl) ∧ (inl ++ stay).Perm sample ∧
      inl.Perm (inliers err (th * 2) q' sample) ∧ cands.length = nt.toNat ∧ Tried fit ns.toNat sample z cands ∧
      Kept (fun x => (inliers err th x sample).length) q 0 cands q' := by
  obtain ⟨s', cands, e, hp, hl, ht, hk⟩ := trials_spec rnd hr fit err ns th sample hn nt.toNat ⟨sample, q, z, 0, 0⟩ (List.Perm.refl _)
  unfold zRANSACSaveInlier
  rw [e]
  dsimp only
  rw [selectInlier_spec]
  refine ⟨s'.q, cands, _, _, rfl, ?_, ?_, hl, ht, hk⟩
  · simp only [List.append_nil, List.reverse_nil, List.nil_append]
    refine ((List.reverse_perm _).append_right _).trans (List.Perm.trans ?_ hp)
    have := List.filter_append_perm (fun p => decide (|err s'.q p| < th * 2)) s'.sample
    simpa only [inliers, decide_not] using this
  · simp only [List.append_nil]
    exact (List.reverse_perm _).trans (inliers_perm err _ _ hp)

/-- C67: zRANSAC leaves the samples a rearrangement of what they were, and the model it refines has the most inliers among the trials. -/
theorem zRANSAC_spec (rnd : Nat → Nat → Nat) (hr : InRange rnd) (fit : Q → List P → Q) (err : Q → P → K) (z : Q) (ns nt : Int) (th : K) (q : Q) (sample : List P)
    (hn : ns ≤ sample.length) :
    ∃ q' cands inl sample', zRANSAC rnd fit err z ns nt th q sample = .ok (fit q' inl, sample') ∧ sample'.Perm sample ∧
      inl.Perm (inliers err (th * 2) q' sample) ∧ cands.length = nt.toNat ∧ Tried fit ns.toNat sample z cands ∧
      Kept (fun x => (inliers err th x sample).length) q 0 cands q' := by
  obtain ⟨q', cands, stay, inl, e, a, b, c, d, f⟩ := zRANSACSaveInlier_spec rnd hr fit err z ns nt th q sample hn
  unfold zRANSAC
  rw [e]
  exact ⟨q', cands, inl, inl ++ stay, rfl, a, b, c, d, f⟩

/-- What `Kept` means for the user: no trial has more inliers than the model kept. -/
theorem Kept.best {cnt : Q → Nat} {q q' : Q} {cands : List Q} (h : Kept cnt q 0 cands q') (x : Q) (hx : x ∈ cands) : cnt x ≤ cnt q' := by
  rcases h with ⟨_, b⟩ | ⟨l, r, a, b, c, d⟩
  · exact (b x hx).trans (Nat.zero_le _)
  · rw [a] at hx
    rcases List.mem_append.1 hx with hx | hx
    · exact (c x hx).le
    · rcases List.mem_cons.1 hx with hx | hx
      · rw [hx]
      · exact d x hx

/-- More samples are asked for than there are: no trial is made, and the given model is refined; the samples are still only rearranged. -/
theorem zRANSAC_few (rnd : Nat → Nat → Nat) (hr : InRange rnd) (fit : Q → List P → Q) (err : Q → P → K) (z : Q) (ns nt : Int) (th : K) (q : Q) (sample : List P)
    (hn : (sample.length : Int) < ns) :
    ∃ inl sample', zRANSAC rnd fit err z ns nt th q sample = .ok (fit q inl, sample') ∧ sample'.Perm sample ∧ inl.Perm (inliers err (th * 2) q sample) := by
  have e : trials rnd fit err ns th nt.toNat ⟨sample, q, z, 0, 0⟩ = .ok ⟨sample, q, z, 0, 0⟩ := by
    cases nt.toNat with
    | zero => rfl
    | succ n => unfold trials; rw [(selectRandom_spec rnd hr ns 0 sample).2 hn]
  unfold zRANSAC zRANSACSaveInlier
  rw [e]
  dsimp only
  rw [selectInlier_spec]
  refine ⟨_, _, rfl, ?_, by simpa using List.reverse_perm _⟩
  simp only [List.append_nil, List.reverse_nil, List.nil_append]
  refine ((List.reverse_perm _).append_right _).trans ?_
  have := List.filter_append_perm (fun p => decide (|err q p| < th * 2)) sample
  simpa only [inliers, decide_not] using this

/-- A concrete run: the model is one number, fitted as the mean of two samples; the samples 1, 1, 9 and the draws of the last, the first, the first and the last. -/
example : InRange (fun k m => if k = 0 ∨ k = 3 then m - 1 else 0) := by intro k m h; dsimp only; split_ifs <;> omega

example : (match zRANSAC (K := ℚ) (P := ℚ) (Q := ℚ) (fun k m => if k = 0 ∨ k = 3 then m - 1 else 0) (fun _ l => l.sum / l.length) (fun q p => p - q) 0 2 2 1 7 [1, 1, 9] with
    | .ok (q, l) => decide (q = 1 ∧ l = [1, 1, 9]) | _ => false) = true := by decide +kernel

end Zm.RANSAC
