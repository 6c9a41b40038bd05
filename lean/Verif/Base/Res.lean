/-!
# Outcomes, loops and checked buffers

Shared vocabulary of the model.  Nothing here models a particular function of the library.

* `Res α`: a C function either delivers a result (`ok`), reports an error through its documented error
  value (`fail`, e.g. it returns `NULL`/`false`), or runs into undefined behaviour (`ub`: out-of-bounds access,
  reading an indeterminate value, dereferencing a null pointer).
* `forUp`, `forDown`: the counted loops `for(i=lo; i<hi; i++)` and `for(i=hi-1; i>=lo; i--)`.
* `forUpM`, `forDownM`: the same with a body that may fail or be undefined.
* `Mem α`: a block of memory of `size` cells; pointers are offsets into it.
-/

namespace Zm

/-- Outcome of a C function. -/
inductive Res (α : Type u) where
  | ok (a : α)
  | fail
  | ub
deriving DecidableEq, Repr

namespace Res

/-- Sequencing: an error or undefined behaviour ends the computation. -/
def bind {α : Type u} {β : Type v} (x : Res α) (f : α → Res β) : Res β :=
  match x with
  | ok a => f a
  | fail => fail
  | ub => ub

instance : Monad Res where
  pure := Res.ok
  bind := Res.bind

@[simp] theorem bind_ok {α β : Type u} (a : α) (f : α → Res β) : (Res.ok a >>= f) = f a := rfl
@[simp] theorem bind_fail {α β : Type u} (f : α → Res β) : ((Res.fail : Res α) >>= f) = Res.fail := rfl
@[simp] theorem bind_ub {α β : Type u} (f : α → Res β) : ((Res.ub : Res α) >>= f) = Res.ub := rfl
@[simp] theorem pure_eq {α : Type u} (a : α) : (pure a : Res α) = Res.ok a := rfl

end Res

/-- `k` iterations of a loop body with counter starting at `i` and going up. -/
def forN {σ : Type u} : Nat → Nat → (Nat → σ → σ) → σ → σ
  | 0, _, _, s => s
  | k+1, i, f, s => forN k (i+1) f (f i s)

/-- `for( i=lo; i<hi; i++ ) s = f(i,s);` -/
def forUp {σ : Type u} (lo hi : Nat) (f : Nat → σ → σ) (s : σ) : σ := forN (hi - lo) lo f s

/-- `k` iterations with counter going down from `lo+k-1` to `lo`. -/
def forDownN {σ : Type u} : Nat → Nat → (Nat → σ → σ) → σ → σ
  | 0, _, _, s => s
  | k+1, lo, f, s => forDownN k lo f (f (lo+k) s)

/-- `for( i=hi-1; i>=lo; i-- ) s = f(i,s);` -/
def forDown {σ : Type u} (lo hi : Nat) (f : Nat → σ → σ) (s : σ) : σ := forDownN (hi - lo) lo f s

/-- `k` iterations of a body that may fail, counter going up from `i`. -/
def forNM {σ : Type u} : Nat → Nat → (Nat → σ → Res σ) → σ → Res σ
  | 0, _, _, s => .ok s
  | k+1, i, f, s => (f i s).bind (forNM k (i+1) f)

/-- `for( i=lo; i<hi; i++ ) body` where the body may fail or be undefined. -/
def forUpM {σ : Type u} (lo hi : Nat) (f : Nat → σ → Res σ) (s : σ) : Res σ := forNM (hi - lo) lo f s

def forDownNM {σ : Type u} : Nat → Nat → (Nat → σ → Res σ) → σ → Res σ
  | 0, _, _, s => .ok s
  | k+1, lo, f, s => (f (lo+k) s).bind (forDownNM k lo f)

/-- `for( i=hi-1; i>=lo; i-- ) body` where the body may fail or be undefined. -/
def forDownM {σ : Type u} (lo hi : Nat) (f : Nat → σ → Res σ) (s : σ) : Res σ := forDownNM (hi - lo) lo f s

section rules
variable {σ : Type u}

@[simp] theorem forUp_self (lo : Nat) (f : Nat → σ → σ) (s : σ) : forUp lo lo f s = s := by
  simp [forUp, forN]

theorem forUp_of_le {lo hi : Nat} (h : hi ≤ lo) (f : Nat → σ → σ) (s : σ) : forUp lo hi f s = s := by
  simp [forUp, Nat.sub_eq_zero_of_le h, forN]

theorem forN_succ_right (k i : Nat) (f : Nat → σ → σ) (s : σ) :
    forN (k+1) i f s = f (i+k) (forN k i f s) := by
  induction k generalizing i s with
  | zero => simp [forN]
  | succ k ih =>
    have := ih (i+1) (f i s)
    simp only [forN] at this ⊢
    rw [this]; congr 1; omega

theorem forUp_succ {lo hi : Nat} (h : lo ≤ hi) (f : Nat → σ → σ) (s : σ) :
    forUp lo (hi+1) f s = f hi (forUp lo hi f s) := by
  unfold forUp
  have : hi + 1 - lo = (hi - lo) + 1 := by omega
  rw [this, forN_succ_right]; congr 1; omega

theorem forUp_left {lo hi : Nat} (h : lo < hi) (f : Nat → σ → σ) (s : σ) :
    forUp lo hi f s = forUp (lo+1) hi f (f lo s) := by
  unfold forUp
  have : hi - lo = (hi - (lo+1)) + 1 := by omega
  rw [this]; rfl

/-- Invariant rule for the upward loop. -/
theorem forUp_inv {lo hi : Nat} (f : Nat → σ → σ) (s : σ) (P : Nat → σ → Prop)
    (hle : lo ≤ hi) (h0 : P lo s)
    (step : ∀ i t, lo ≤ i → i < hi → P i t → P (i+1) (f i t)) : P hi (forUp lo hi f s) := by
  induction hi with
  | zero => have : lo = 0 := by omega
            subst this; simpa using h0
  | succ n ih =>
    by_cases h : lo = n + 1
    · subst h; simpa using h0
    · have hl : lo ≤ n := by omega
      rw [forUp_succ hl]
      exact step n _ hl (by omega) (ih hl (fun i t h1 h2 => step i t h1 (by omega)))

theorem forUp_congr {lo hi : Nat} (f g : Nat → σ → σ) (s : σ)
    (h : ∀ i t, lo ≤ i → i < hi → f i t = g i t) : forUp lo hi f s = forUp lo hi g s := by
  induction hi with
  | zero => simp [forUp_of_le (Nat.zero_le lo)]
  | succ n ih =>
    by_cases hl : lo ≤ n
    · rw [forUp_succ hl, forUp_succ hl, ih (fun i t h1 h2 => h i t h1 (by omega)), h n _ hl (by omega)]
    · rw [forUp_of_le (by omega), forUp_of_le (by omega)]

theorem forDown_succ {lo hi : Nat} (h : lo ≤ hi) (f : Nat → σ → σ) (s : σ) :
    forDown lo (hi+1) f s = forDown lo hi f (f hi s) := by
  unfold forDown
  have : hi + 1 - lo = (hi - lo) + 1 := by omega
  rw [this]; simp only [forDownN]; congr 2; omega

theorem forDown_of_le {lo hi : Nat} (h : hi ≤ lo) (f : Nat → σ → σ) (s : σ) : forDown lo hi f s = s := by
  simp [forDown, Nat.sub_eq_zero_of_le h, forDownN]

/-- Invariant rule for the downward loop: `P i` holds when all indices `≥ i` have been processed. -/
theorem forDown_inv {lo hi : Nat} (f : Nat → σ → σ) (s : σ) (P : Nat → σ → Prop)
    (hle : lo ≤ hi) (h0 : P hi s)
    (step : ∀ i t, lo ≤ i → i < hi → P (i+1) t → P i (f i t)) : P lo (forDown lo hi f s) := by
  induction hi generalizing s with
  | zero => have : lo = 0 := by omega
            subst this; simpa [forDown_of_le] using h0
  | succ n ih =>
    by_cases h : lo = n + 1
    · subst h; simpa [forDown_of_le] using h0
    · have hl : lo ≤ n := by omega
      rw [forDown_succ hl]
      exact ih _ hl (step n s hl (by omega) h0) (fun i t h1 h2 => step i t h1 (by omega))

/-- Total-correctness rule for the monadic upward loop: the loop terminates normally and establishes `P hi`. -/
theorem forUpM_ok {lo hi : Nat} (f : Nat → σ → Res σ) (s : σ) (P : Nat → σ → Prop)
    (hle : lo ≤ hi) (h0 : P lo s)
    (step : ∀ i t, lo ≤ i → i < hi → P i t → ∃ t', f i t = .ok t' ∧ P (i+1) t') :
    ∃ s', forUpM lo hi f s = .ok s' ∧ P hi s' := by
  unfold forUpM
  obtain ⟨k, hk⟩ : ∃ k, k = hi - lo := ⟨_, rfl⟩
  rw [← hk]
  induction k generalizing lo s with
  | zero => exact ⟨s, rfl, by have : lo = hi := by omega
                              rwa [this] at h0⟩
  | succ k ih =>
    obtain ⟨t', ht, hp⟩ := step lo s (Nat.le_refl _) (by omega) h0
    obtain ⟨s', hs, hP⟩ := ih (lo := lo+1) t' (by omega) hp (fun i t h1 h2 => step i t (by omega) h2) (by omega)
    exact ⟨s', by simp [forNM, ht, Res.bind, hs], hP⟩

theorem forDownM_ok {lo hi : Nat} (f : Nat → σ → Res σ) (s : σ) (P : Nat → σ → Prop)
    (hle : lo ≤ hi) (h0 : P hi s)
    (step : ∀ i t, lo ≤ i → i < hi → P (i+1) t → ∃ t', f i t = .ok t' ∧ P i t') :
    ∃ s', forDownM lo hi f s = .ok s' ∧ P lo s' := by
  unfold forDownM
  obtain ⟨k, hk⟩ : ∃ k, k = hi - lo := ⟨_, rfl⟩
  rw [← hk]
  induction k generalizing hi s with
  | zero => exact ⟨s, rfl, by have : lo = hi := by omega
                              rwa [← this] at h0⟩
  | succ k ih =>
    have hh : hi = (lo + k) + 1 := by omega
    subst hh
    obtain ⟨t', ht, hp⟩ := step (lo+k) s (by omega) (by omega) h0
    obtain ⟨s', hs, hP⟩ := ih (hi := lo+k) t' (by omega) hp (fun i t h1 h2 => step i t h1 (by omega)) (by omega)
    exact ⟨s', by simp [forDownNM, ht, Res.bind, hs], hP⟩

/-- Partial-correctness rule: if the loop terminated normally then `P hi` holds. -/
theorem forUpM_of_ok {lo hi : Nat} {f : Nat → σ → Res σ} {s s' : σ} (P : Nat → σ → Prop)
    (hle : lo ≤ hi) (h0 : P lo s)
    (step : ∀ i t t', lo ≤ i → i < hi → P i t → f i t = .ok t' → P (i+1) t')
    (h : forUpM lo hi f s = .ok s') : P hi s' := by
  unfold forUpM at h
  obtain ⟨k, hk⟩ : ∃ k, k = hi - lo := ⟨_, rfl⟩
  rw [← hk] at h
  induction k generalizing lo s with
  | zero => have : lo = hi := by omega
            simp [forNM] at h; subst h; rwa [this] at h0
  | succ k ih =>
    cases hf : f lo s with
    | ok t =>
      simp [forNM, hf, Res.bind] at h
      exact ih (lo := lo+1) (s := t) (by omega) (step lo s t (Nat.le_refl _) (by omega) h0 hf)
        (fun i t t' h1 h2 => step i t t' (by omega) h2) h (by omega)
    | fail => simp [forNM, hf, Res.bind] at h
    | ub => simp [forNM, hf, Res.bind] at h

end rules

/-- A block of memory with `size` cells; `val i` is the content of cell `i` (meaningless for `i ≥ size`). -/
structure Mem (α : Type u) where
  size : Nat
  val : Nat → α

namespace Mem
variable {α : Type u}

/-- Memory holding the elements of a list (used in concrete examples). -/
def ofList [Inhabited α] (l : List α) : Mem α := ⟨l.length, fun i => l.getD i default⟩

/-- The cells as a list (used in concrete examples). -/
def toList (m : Mem α) : List α := (List.range m.size).map m.val

/-- `*(p)` as an rvalue; undefined outside the block. -/
def rd (m : Mem α) (i : Nat) : Res α := if i < m.size then .ok (m.val i) else .ub

/-- `*(p) = x`; undefined outside the block. -/
def wr (m : Mem α) (i : Nat) (x : α) : Res (Mem α) :=
  if i < m.size then .ok ⟨m.size, fun j => if j = i then x else m.val j⟩ else .ub

/-- Access through a signed index. -/
def rdI (m : Mem α) (i : Int) : Res α := if 0 ≤ i ∧ i < m.size then .ok (m.val i.toNat) else .ub

def wrI (m : Mem α) (i : Int) (x : α) : Res (Mem α) :=
  if 0 ≤ i ∧ i < m.size then .ok ⟨m.size, fun j => if (j : Int) = i then x else m.val j⟩ else .ub

theorem rd_ok (m : Mem α) {i : Nat} (h : i < m.size) : m.rd i = .ok (m.val i) := by simp [rd, h]
theorem wr_ok (m : Mem α) {i : Nat} (x : α) (h : i < m.size) :
    m.wr i x = .ok ⟨m.size, fun j => if j = i then x else m.val j⟩ := by simp [wr, h]
theorem rd_ub (m : Mem α) {i : Nat} (h : m.size ≤ i) : m.rd i = .ub := by simp [rd, Nat.not_lt.2 h]

end Mem

end Zm
