import Verif.Base.Res
import Mathlib.Data.Set.Basic
import Mathlib.Data.Set.Insert

/-! # Helper lemmas: memory updates restricted to a set of addresses -/

namespace Zm
variable {K : Type*}

/-- `m'` is `m` with exactly the cells in `R` replaced by the contents `F`. -/
def Upd (m m' : Mem K) (R : Set Nat) (F : Nat → K) : Prop :=
  m'.size = m.size ∧ (∀ a, a ∈ R → m'.val a = F a) ∧ (∀ a, a ∉ R → m'.val a = m.val a)

theorem Upd.refl (m : Mem K) (F : Nat → K) : Upd m m ∅ F := ⟨rfl, by simp, by simp⟩

theorem Upd.trans {m t u : Mem K} {R S : Set Nat} {F : Nat → K} (h1 : Upd m t R F) (h2 : Upd t u S F) :
    Upd m u (R ∪ S) F := by
  obtain ⟨s1, i1, o1⟩ := h1
  obtain ⟨s2, i2, o2⟩ := h2
  refine ⟨s2.trans s1, ?_, ?_⟩
  · intro a ha
    by_cases h : a ∈ S
    · exact i2 a h
    · rw [o2 a h]
      exact i1 a (by rcases ha with h' | h'; exact h'; exact absurd h' h)
  · intro a ha
    simp only [Set.mem_union, not_or] at ha
    rw [o2 a ha.2, o1 a ha.1]

theorem Upd.congr {m m' : Mem K} {R S : Set Nat} {F G : Nat → K} (h : Upd m m' R F) (hRS : R = S)
    (hFG : ∀ a ∈ R, F a = G a) : Upd m m' S G := by
  subst hRS
  exact ⟨h.1, fun a ha => by rw [h.2.1 a ha, hFG a ha], h.2.2⟩

theorem wr_upd (m : Mem K) {a : Nat} (x : K) (ha : a < m.size) (F : Nat → K) (hF : F a = x) :
    ∃ m', m.wr a x = .ok m' ∧ Upd m m' {a} F := by
  refine ⟨_, Mem.wr_ok m x ha, rfl, ?_, ?_⟩
  · intro b hb; simp at hb; subst hb; simp [hF]
  · intro b hb; simp at hb; simp [hb]

/-- Loop whose `i`-th iteration rewrites the cells `R i` with their final contents. -/
theorem forUpM_upd (n : Nat) (f : Nat → Mem K → Res (Mem K)) (m : Mem K) (R : Nat → Set Nat) (F : Nat → K)
    (step : ∀ i t, i < n → Upd m t {a | ∃ j, j < i ∧ a ∈ R j} F → ∃ t', f i t = .ok t' ∧ Upd t t' (R i) F) :
    ∃ m', forUpM 0 n f m = .ok m' ∧ Upd m m' {a | ∃ j, j < n ∧ a ∈ R j} F := by
  refine forUpM_ok f m (fun i t => Upd m t {a | ∃ j, j < i ∧ a ∈ R j} F) (Nat.zero_le _) ?_ ?_
  · exact (Upd.refl m F).congr (by ext; simp) (by simp)
  · intro i t _ hi h
    obtain ⟨t', ht, hu⟩ := step i t hi h
    refine ⟨t', ht, (h.trans hu).congr ?_ (fun _ _ => rfl)⟩
    ext a
    simp only [Set.mem_union, Set.mem_ofPred_eq]
    constructor
    · rintro (⟨j, hj, ha⟩ | ha)
      · exact ⟨j, by omega, ha⟩
      · exact ⟨i, by omega, ha⟩
    · rintro ⟨j, hj, ha⟩
      by_cases e : j = i
      · subst e; exact Or.inr ha
      · exact Or.inl ⟨j, by omega, ha⟩

/-- `while( cond ) body` with an iteration budget; `fail` means that the budget was exhausted. -/
def whileM {σ : Type u} : Nat → (σ → Bool) → (σ → Res σ) → σ → Res σ
  | 0, _, _, _ => .fail
  | k+1, cond, body, s => if cond s then (body s).bind (whileM k cond body) else .ok s

/-- Total-correctness rule for `whileM` with an explicit iteration count. -/
theorem whileM_ok {σ : Type u} (cond : σ → Bool) (body : σ → Res σ) (P : Nat → σ → Prop) (n : Nat) (s : σ)
    (h0 : P 0 s) (step : ∀ i t, i < n → P i t → cond t = true ∧ ∃ t', body t = .ok t' ∧ P (i+1) t')
    (stop : ∀ t, P n t → cond t = false) (fuel : Nat) (hf : n < fuel) :
    ∃ s', whileM fuel cond body s = .ok s' ∧ P n s' := by
  suffices H : ∀ k i s, i + k = n → P i s → ∀ fuel, k < fuel → ∃ s', whileM fuel cond body s = .ok s' ∧ P n s' from
    H n 0 s (by omega) h0 fuel hf
  intro k
  induction k with
  | zero =>
    intro i s hi hp fuel hf
    obtain ⟨f, rfl⟩ : ∃ f, fuel = f + 1 := ⟨fuel - 1, by omega⟩
    have : i = n := by omega
    subst this
    exact ⟨s, by simp [whileM, stop s hp], hp⟩
  | succ k ih =>
    intro i s hi hp fuel hf
    obtain ⟨f, rfl⟩ : ∃ f, fuel = f + 1 := ⟨fuel - 1, by omega⟩
    obtain ⟨hc, t', ht, hp'⟩ := step i s (by omega) hp
    obtain ⟨s', hs, hP⟩ := ih (i+1) t' (by omega) hp' f (by omega)
    exact ⟨s', by simp [whileM, hc, ht, Res.bind, hs], hP⟩

end Zm
