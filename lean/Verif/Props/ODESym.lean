import Verif.Model.ODESym
import Verif.Props.ODEMore
import Mathlib.Algebra.Module.LinearMap.Basic
import Mathlib.LinearAlgebra.Prod
import Mathlib.Algebra.Module.Submodule.Bilinear
import Mathlib.Data.Rat.Cast.CharZero
import Mathlib.Tactic.Module
import Mathlib.Tactic.Linarith

/-! # Conservation by the symplectic and the leapfrog method over any history (C248) -/

set_option linter.unusedSectionVars false

namespace Zm.ODE
open Zm

variable {K V : Type*} [Field K] [CharZero K] [AddCommGroup V] [Module K V]

/-- **C248.** A force without a component along `L` (the sum of internal forces, say) leaves the momentum along `L` as it is, and the centre moves uniformly, exactly, for all times and
steps, by both methods: also by the leapfrog method from its start. -/
theorem momentum (f : K → V → V → V) (L : V →ₗ[K] K) (hL : ∀ t x v, L (f t x v) = 0) (cs : List (K × K)) (x v : V) :
    L (symRun f cs (x, v)).2 = L v ∧ L (symRun f cs (x, v)).1 = L x + (cs.map Prod.snd).sum * L v ∧
    L (leapRun f cs (zODE2InitHistoryLeapfrog x v)).2.1 = L v ∧ L (leapRun f cs (zODE2InitHistoryLeapfrog x v)).1 = L x + (cs.map Prod.snd).sum * L v := by
  have hs : ∀ (cs : List (K × K)) (x v : V), L (symRun f cs (x, v)).2 = L v ∧ L (symRun f cs (x, v)).1 = L x + (cs.map Prod.snd).sum * L v := by
    intro cs
    induction cs with
    | nil => intro x v; simp [symRun]
    | cons c cs ih =>
      intro x v
      obtain ⟨h1, h2⟩ := ih (zODE2UpdateSymplectic f c.1 x v c.2).1 (zODE2UpdateSymplectic f c.1 x v c.2).2
      have e2 : L (zODE2UpdateSymplectic f c.1 x v c.2).2 = L v := by simp [zODE2UpdateSymplectic, cat, hL]
      have e1 : L (zODE2UpdateSymplectic f c.1 x v c.2).1 = L x + c.2 * L v := by simp [zODE2UpdateSymplectic, cat, hL]
      refine ⟨h1.trans e2, h2.trans ?_⟩
      rw [e1, e2, List.map_cons, List.sum_cons]; ring
  have hl : ∀ (cs : List (K × K)) (x v w : V), L v = L w → L (leapRun f cs (x, v, w)).2.1 = L w ∧ L (leapRun f cs (x, v, w)).1 = L x + (cs.map Prod.snd).sum * L w := by
    intro cs
    induction cs with
    | nil => intro x v w h; simp [leapRun, h]
    | cons c cs ih =>
      intro x v w h
      have e3 : L (zODE2UpdateLeapfrog f c.1 x v w c.2).2.2 = L w := by simp [zODE2UpdateLeapfrog, cat, hL]
      have e2 : L (zODE2UpdateLeapfrog f c.1 x v w c.2).2.1 = L w := by simp [zODE2UpdateLeapfrog, cat, hL]
      have e1 : L (zODE2UpdateLeapfrog f c.1 x v w c.2).1 = L x + c.2 * L w := by simp [zODE2UpdateLeapfrog, cat, hL]
      obtain ⟨h1, h2⟩ := ih (zODE2UpdateLeapfrog f c.1 x v w c.2).1 (zODE2UpdateLeapfrog f c.1 x v w c.2).2.1 (zODE2UpdateLeapfrog f c.1 x v w c.2).2.2 (e2.trans e3.symm)
      refine ⟨h1.trans e3, h2.trans ?_⟩
      rw [e1, e3, List.map_cons, List.sum_cons]; ring
  exact ⟨(hs cs x v).1, (hs cs x v).2, (hl cs x v v rfl).1, (hl cs x v v rfl).2⟩

/-- **C248.** A force that has no moment (a central force, say) leaves the angular momentum as it is, exactly, for all times and steps, by both methods.  `B` is any moment: a
bilinear form with `B x x = 0`. -/
theorem angular_momentum (f : K → V → V → V) (B : V →ₗ[K] V →ₗ[K] K) (hB : ∀ x, B x x = 0) (hf : ∀ t x v, B x (f t x v) = 0) (cs : List (K × K)) (x v : V) :
    (let y := symRun f cs (x, v); B y.1 y.2 = B x v) ∧ (let y := leapRun f cs (zODE2InitHistoryLeapfrog x v); B y.1 y.2.1 = B x v) := by
  have hs : ∀ (cs : List (K × K)) (y : V × V), B (symRun f cs y).1 (symRun f cs y).2 = B y.1 y.2 := by
    intro cs
    induction cs with
    | nil => intro y; rfl
    | cons c cs ih =>
      intro y
      refine (ih (zODE2UpdateSymplectic f c.1 y.1 y.2 c.2)).trans ?_
      have e := hB (y.2 + c.2 • f c.1 y.1 y.2)
      simp only [zODE2UpdateSymplectic, cat]
      rw [LinearMap.map_add₂, LinearMap.map_smul₂, e, smul_zero, add_zero, map_add, map_smul, hf, smul_zero, add_zero]
  have hl : ∀ (cs : List (K × K)) (y : V × V × V), B y.1 y.2.1 = B y.1 y.2.2 → B (leapRun f cs y).1 (leapRun f cs y).2.1 = B y.1 y.2.1 := by
    intro cs
    induction cs with
    | nil => intro y _; rfl
    | cons c cs ih =>
      intro y h
      have e := hB (y.2.2 + c.2 • f c.1 y.1 y.2.1)
      have e3 : B (zODE2UpdateLeapfrog f c.1 y.1 y.2.1 y.2.2 c.2).1 (zODE2UpdateLeapfrog f c.1 y.1 y.2.1 y.2.2 c.2).2.2 = B y.1 y.2.2 := by
        simp only [zODE2UpdateLeapfrog, cat]
        rw [LinearMap.map_add₂, LinearMap.map_smul₂, e, smul_zero, add_zero, map_add, map_smul, hf, smul_zero, add_zero]
      have e2 : B (zODE2UpdateLeapfrog f c.1 y.1 y.2.1 y.2.2 c.2).1 (zODE2UpdateLeapfrog f c.1 y.1 y.2.1 y.2.2 c.2).2.1 = B y.1 y.2.2 := by
        rw [← e3]
        show B _ (cat _ _ (f c.1 (zODE2UpdateLeapfrog f c.1 y.1 y.2.1 y.2.2 c.2).1 _)) = _
        unfold cat
        rw [map_add, map_smul, hf, smul_zero, add_zero]
        rfl
      refine (ih (zODE2UpdateLeapfrog f c.1 y.1 y.2.1 y.2.2 c.2) (e2.trans e3.symm)).trans ?_
      rw [e2, h]
  exact ⟨hs cs (x, v), hl cs _ rfl⟩

/-- **C248.** For forces that do not depend on the velocity, the leapfrog method as it is started gives the displacements of the symplectic method. -/
theorem leap_displacement (g : K → V → V) (cs : List (K × K)) (x v : V) :
    (leapRun (fun t x _ => g t x) cs (zODE2InitHistoryLeapfrog x v)).1 = (symRun (fun t x _ => g t x) cs (x, v)).1 := by
  have : ∀ (cs : List (K × K)) (x v w : V), (leapRun (fun t x _ => g t x) cs (x, v, w)).1 = (symRun (fun t x _ => g t x) cs (x, w)).1 := by
    intro cs
    induction cs with
    | nil => intro x v w; rfl
    | cons c cs ih => intro x v w; exact ih _ _ _
  exact this cs x v v

/-- **C248, violated** (constant acceleration should be integrated exactly): after `n + 1` equal steps the leapfrog method as it is started is off by half a step times the acceleration in the
velocity, however many the steps, and by half a step times the elapsed time times the acceleration in the displacement. -/
theorem leap_constant_violated (a x v : V) (dt : K) (ts : List K) (n : Nat) (hn : ts.length = n + 1) :
    let T := ((n + 1 : Nat) : K) * dt
    let y := leapRun (fun _ _ _ => a) (ts.map fun t => (t, dt)) (zODE2InitHistoryLeapfrog x v)
    y.1 = (x + T • v + (T^2 / 2) • a) + (dt * T / 2) • a ∧ y.2.1 = (v + T • a) + (dt / 2) • a := by
  have key : ∀ (ts : List K) (x v w : V), (leapRun (fun _ _ _ => a) (ts.map fun t => (t, dt)) (x, v, w)).1 =
      x + ((ts.length : K) * dt) • w + ((ts.length : K) * (ts.length + 1) / 2 * dt^2) • a ∧
      (ts ≠ [] → (leapRun (fun _ _ _ => a) (ts.map fun t => (t, dt)) (x, v, w)).2.1 = w + (((ts.length : K) + 1/2) * dt) • a) := by
    intro ts
    induction ts with
    | nil => intro x v w; simp [leapRun]
    | cons t ts ih =>
      intro x v w
      obtain ⟨h1, h2⟩ := ih (zODE2UpdateLeapfrog (fun _ _ _ => a) t x v w dt).1 (zODE2UpdateLeapfrog (fun _ _ _ => a) t x v w dt).2.1 (zODE2UpdateLeapfrog (fun _ _ _ => a) t x v w dt).2.2
      refine ⟨h1.trans ?_, fun _ => ?_⟩
      · simp only [zODE2UpdateLeapfrog, cat, List.length_cons, Nat.cast_add, Nat.cast_one]
        module
      · by_cases he : ts = []
        · subst he
          simp only [leapRun, List.map_cons, List.map_nil, zODE2UpdateLeapfrog, cat, List.length_cons, List.length_nil, Nat.cast_add, Nat.cast_one, Nat.cast_zero]
          module
        · refine (h2 he).trans ?_
          simp only [zODE2UpdateLeapfrog, cat, List.length_cons, Nat.cast_add, Nat.cast_one]
          module
  obtain ⟨h1, h2⟩ := key ts x v v
  have hne : ts ≠ [] := by intro h; rw [h] at hn; cases hn
  dsimp only
  refine ⟨h1.trans ?_, (h2 hne).trans ?_⟩
  · rw [hn]; module
  · rw [hn]; module

/-- the errors are there: a unit acceleration from rest -/
example : (leapRun (fun _ _ _ => (1 : ℚ)) [((0:ℚ), 1/10), (1/10, 1/10)] (zODE2InitHistoryLeapfrog 0 0)).2.1 = 1/4 := by
  norm_num [leapRun, zODE2InitHistoryLeapfrog, zODE2UpdateLeapfrog, cat]

/-- a moment in the plane and a central force: the hypotheses of `angular_momentum` are met -/
example : ∃ B : (ℚ × ℚ) →ₗ[ℚ] (ℚ × ℚ) →ₗ[ℚ] ℚ, (∀ x, B x x = 0) ∧ (∀ x : ℚ × ℚ, B x ((-(x.1^2 + x.2^2)) • x) = 0) ∧ B (1, 0) (0, 1) = 1 := by
  refine ⟨LinearMap.mk₂ ℚ (fun x y => x.1 * y.2 - x.2 * y.1) ?_ ?_ ?_ ?_, ?_, ?_, ?_⟩
  · intro a b c; simp; ring
  · intro a b c; simp; ring
  · intro a b c; simp; ring
  · intro a b c; simp; ring
  · intro x; simp; ring
  · intro x; simp; exact Or.inr (by ring)
  · simp

/-- two bodies that pull each other: the hypotheses of `momentum` are met -/
example : ∀ (_ : ℚ) (x _ : ℚ × ℚ), (LinearMap.fst ℚ ℚ ℚ + LinearMap.snd ℚ ℚ ℚ) ((x.2 - x.1, x.1 - x.2) : ℚ × ℚ) = 0 := by
  intro _ x _; simp

end Zm.ODE
