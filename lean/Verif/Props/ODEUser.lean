import Verif.Model.ODEUser
import Verif.Props.ODEMore
import Mathlib.Algebra.Module.Submodule.Basic
import Mathlib.Algebra.Module.Submodule.Lattice
import Mathlib.Algebra.Order.Ring.Rat
import Mathlib.Data.Rat.Floor
import Mathlib.Tactic.Abel

/-! # What a solver of differential equations asks of the functions of its caller

Specification.  A caller describes a set `M` of states and a space `T` of derivatives by `Contract o u M T`: called with the pointer `u`, the
right-hand side is defined on `M` and gives derivatives in `T`, and `cat` moves a state of `M` along a derivative of `T` to a state of `M`.
Nothing is asked of the functions outside of `M` and `T` or with another pointer: they may be undefined there.  A solver keeps the contract if
it takes every state of `M` to a state of `M`, without undefined behaviour. -/

set_option linter.unusedSectionVars false

namespace Zm.ODEUser
open ODE (Tab gearA gearB adamsWeight)

section
variable {K V P : Type*} [Field K] [AddCommGroup V] [Module K V]

/-- The outcome is a value with property `A`. -/
def Yields {α : Type*} (r : Res α) (A : α → Prop) : Prop := ∃ a, r = .ok a ∧ A a

theorem Yields.bind {α β : Type*} {r : Res α} {g : α → Res β} {A : α → Prop} {B : β → Prop} (h : Yields r A)
    (hg : ∀ a, A a → Yields (g a) B) : Yields (r.bind g) B := by
  obtain ⟨a, rfl, ha⟩ := h
  exact hg a ha

theorem Yields.ok {α : Type*} {A : α → Prop} {a : α} (h : A a) : Yields (.ok a) A := ⟨a, rfl, h⟩

/-- What the caller promises: see the head of this file. -/
structure Contract (o : Solver K V P) (u : P) (M : V → Prop) (T : Submodule K V) : Prop where
  f_ok : ∀ t x, M x → Yields (o.f t x u) (· ∈ T)
  cat_ok : ∀ x dt dx, M x → dx ∈ T → Yields (o.cat x dt dx u) M

variable {o : Solver K V P} {u : P} {M : V → Prop} {T : Submodule K V}

/-! ## Explicit methods keep the contract -/

theorem zODEUpdateEuler_keeps (h : Contract o u M T) (t : K) (x : V) (dt : K) (hx : M x) : Yields (zODEUpdateEuler o t x dt u) M :=
  (h.f_ok _ _ hx).bind fun _ hk => h.cat_ok _ _ _ hx hk

theorem zODEUpdateHeun_keeps (h : Contract o u M T) (t : K) (x : V) (dt : K) (hx : M x) : Yields (zODEUpdateHeun o t x dt u) M :=
  (h.f_ok _ _ hx).bind fun _ h0 => (h.cat_ok _ _ _ hx h0).bind fun _ hy => (h.f_ok _ _ hy).bind fun _ h1 =>
  (h.cat_ok _ _ _ hx h1).bind fun _ hy => (h.f_ok _ _ hy).bind fun _ h2 => (h.cat_ok _ _ _ hx h0).bind fun _ hx => h.cat_ok _ _ _ hx h2

theorem zODEUpdateRK4_keeps (h : Contract o u M T) (t : K) (x : V) (dt : K) (hx : M x) : Yields (zODEUpdateRK4 o t x dt u) M :=
  (h.f_ok _ _ hx).bind fun _ h0 => (h.cat_ok _ _ _ hx h0).bind fun _ hy => (h.f_ok _ _ hy).bind fun _ h1 =>
  (h.cat_ok _ _ _ hx h1).bind fun _ hy => (h.f_ok _ _ hy).bind fun _ h2 => (h.cat_ok _ _ _ hx h2).bind fun _ hy =>
  (h.f_ok _ _ hy).bind fun _ h3 => (h.cat_ok _ _ _ hx h0).bind fun _ hx => (h.cat_ok _ _ _ hx h1).bind fun _ hx =>
  (h.cat_ok _ _ _ hx h2).bind fun _ hx => h.cat_ok _ _ _ hx h3

theorem zODEUpdateRKG_keeps (r2 : K) (h : Contract o u M T) (t : K) (x : V) (dt : K) (hx : M x) :
    Yields (zODEUpdateRKG r2 o t x dt u) M :=
  (h.f_ok _ _ hx).bind fun _ hv => (h.cat_ok _ _ _ hx hv).bind fun _ hx =>
  (h.f_ok _ _ hx).bind fun _ hu => (h.cat_ok _ _ _ hx hu).bind fun _ hx => (h.cat_ok _ _ _ hx hv).bind fun _ hx =>
  have hv := T.add_mem (T.smul_mem _ hv) (T.smul_mem _ hu)
  (h.f_ok _ _ hx).bind fun _ hu => (h.cat_ok _ _ _ hx hu).bind fun _ hx => (h.cat_ok _ _ _ hx hv).bind fun _ hx =>
  have hv := T.add_mem (T.smul_mem _ hv) (T.smul_mem _ hu)
  (h.f_ok _ _ hx).bind fun _ hu => (h.cat_ok _ _ _ hx hu).bind fun _ hx => h.cat_ok _ _ _ hx hv

theorem erkArg_keeps (h : Contract o u M T) (a : Nat → K) (dt : K) (k : Nat → V) (hk : ∀ j, k j ∈ T) (x : V) (i l : Nat) (hx : M x) :
    Yields (erkArg o a dt k x i l u) (fun s => M s.1) := by
  obtain ⟨s, hs, hm⟩ := forUpM_ok (lo := 0) (hi := i)
    (fun j (s : V × Nat) => (o.cat s.1 (a s.2 * dt) (k j) u).bind fun y => .ok (y, s.2 + 1)) (x, l) (fun _ s => M s.1) (Nat.zero_le _) hx
    (fun j s _ _ hs => (h.cat_ok _ _ _ hs (hk j)).bind fun _ hy => Yields.ok hy)
  exact ⟨s, hs, hm⟩

theorem erkStages_keeps (h : Contract o u M T) (n : Nat) (hn : 1 ≤ n) (a c : Nat → K) (t : K) (x : V) (dt : K) (hx : M x) :
    Yields (erkStages o n a c t x dt u) (fun s => ∀ j, s.1 j ∈ T) := by
  refine (h.f_ok _ _ hx).bind fun k0 h0 => ?_
  have hset : ∀ (k : Nat → V) i v, (∀ j, k j ∈ T) → v ∈ T → ∀ j, set1 k i v j ∈ T := by
    intro k i v hk hv j
    by_cases hj : j = i
    · subst hj; rw [set1_same]; exact hv
    · rw [set1_ne _ _ hj]; exact hk j
  obtain ⟨s, hs, hm⟩ := forUpM_ok (lo := 1) (hi := n)
    (fun i (s : (Nat → V) × Nat) => (erkArg o a dt s.1 x i s.2 u).bind fun y =>
      (o.f (t + c (i-1) * dt) y.1 u).bind fun k => .ok (set1 s.1 i k, y.2)) (set1 (fun _ => 0) 0 k0, 0)
    (fun _ s => ∀ j, s.1 j ∈ T) hn (hset _ _ _ (fun _ => T.zero_mem) h0)
    (fun i s _ _ hs => (erkArg_keeps h a dt s.1 hs x i s.2 hx).bind fun _ hy => (h.f_ok _ _ hy).bind fun _ hk => Yields.ok (hset _ _ _ hs hk))
  exact ⟨s, hs, hm⟩

theorem erkSums_keeps (h : Contract o u M T) (n : Nat) (bc bf : Nat → K) (k : Nat → V) (hk : ∀ j, k j ∈ T) (x : V) (dt : K) (hx : M x) :
    Yields (erkSums o n bc bf k x dt u) (fun s => M s.1 ∧ M s.2) := by
  obtain ⟨s, hs, hm⟩ := forUpM_ok (lo := 0) (hi := n)
    (fun i (s : V × V) => (o.cat s.1 (bc i * dt) (k i) u).bind fun xc => (o.cat s.2 (bf i * dt) (k i) u).bind fun xf => .ok (xc, xf)) (x, x)
    (fun _ s => M s.1 ∧ M s.2) (Nat.zero_le _) ⟨hx, hx⟩
    (fun i s _ _ hs => (h.cat_ok _ _ _ hs.1 (hk i)).bind fun _ h1 => (h.cat_ok _ _ _ hs.2 (hk i)).bind fun _ h2 => Yields.ok ⟨h1, h2⟩)
  exact ⟨s, hs, hm⟩

/-- The embedded methods: the step halves until it is shorter than `dtol`, so `n` levels of recursion do for a step of up to `dtol * 2^n`. -/
theorem zODEUpdateERK_keeps [LinearOrder K] [IsStrictOrderedRing K] (T' : Tab K) (hT : 1 ≤ T'.n) (dist : V → V → K) (tol dtol : K)
    (h : Contract o u M T) (n : Nat) (t : K) (x : V) (dt : K) (hdt : dt ≤ dtol * 2 ^ n) (hx : M x) :
    Yields (zODEUpdateERK T' dist tol dtol o u (n+1) t x dt) M := by
  induction n generalizing t x dt with
  | zero =>
    refine (erkStages_keeps h _ hT _ _ _ _ _ hx).bind fun k hk => (erkSums_keeps h _ _ _ _ hk _ _ hx).bind fun s hs => ?_
    rw [if_neg (by rintro ⟨h1, _⟩; rw [pow_zero, mul_one] at hdt; exact absurd h1 (not_lt.2 hdt))]
    exact Yields.ok hs.2
  | succ n ih =>
    refine (erkStages_keeps h _ hT _ _ _ _ _ hx).bind fun k hk => (erkSums_keeps h _ _ _ _ hk _ _ hx).bind fun s hs => ?_
    have hhalf : dt * (1/2) ≤ dtol * 2 ^ n := by
      have : dtol * 2 ^ (n+1) * (1/2) = dtol * 2 ^ n := by rw [pow_succ]; field_simp
      rw [← this]
      exact mul_le_mul_of_nonneg_right hdt (by positivity)
    split
    · exact (ih _ _ _ hhalf hx).bind fun y hy => ih _ _ _ hhalf hy
    · exact Yields.ok hs.2

/-- All derivatives kept in the ring are in `T`. -/
def InRing (T : Submodule K V) (r : ODE.Ring V) : Prop := ∀ i, r.buf i ∈ T

theorem InRing.setHead {r : ODE.Ring V} (h : InRing T r) {k : V} (hk : k ∈ T) : InRing T (r.setHead k) := by
  intro i
  show set1 r.buf (r.head % r.size) k i ∈ T
  by_cases hi : i = r.head % r.size
  · subst hi; rw [set1_same]; exact hk
  · rw [set1_ne _ _ hi]; exact h i

theorem InRing.linearSum {r : ODE.Ring V} (h : InRing T r) (n : Nat) (w : Nat → K) : r.linearSum n w ∈ T :=
  forUp_inv (lo := 0) (hi := n) (fun i s => ODE.cat s (w i) (r.elem i)) 0 (fun _ s => s ∈ T) (Nat.zero_le _) T.zero_mem
    (fun _ _ _ _ hs => T.add_mem hs (T.smul_mem _ (h _)))

theorem adamsStep_keeps (h : Contract o u M T) (n : Nat) (t : K) (x xorg : V) (w : Nat → K) (dt : K) (r : ODE.Ring V) (hx : M x)
    (ho : M xorg) (hr : InRing T r) : Yields (adamsStep n o t x xorg w dt r u) (fun s => M s.1 ∧ InRing T s.2) :=
  (h.f_ok _ _ ho).bind fun _ hk => (h.cat_ok _ _ _ hx ((hr.setHead hk).linearSum n w)).bind fun _ hy => Yields.ok ⟨hy, hr.setHead hk⟩

theorem adamsCorrect_keeps (h : Contract o u M T) (near : V → V → Bool) (n : Nat) (t2 : K) (x : V) (wm : Nat → K) (dt : K) (hx : M x)
    (m : Nat) (xold xnew : V) (r : ODE.Ring V) (ho : M xold) (hn : m = 0 → M xnew) (hr : InRing T r) :
    Yields (adamsCorrect near n o t2 x wm dt u m xold xnew r) (fun s => M s.1 ∧ InRing T s.2) := by
  induction m generalizing xold xnew r with
  | zero => exact Yields.ok ⟨hn rfl, hr⟩
  | succ m ih =>
    refine (adamsStep_keeps h n t2 x xold wm dt r hx ho hr).bind fun s hs => ?_
    split
    · exact Yields.ok hs
    · exact ih _ _ _ hs.1 (fun _ => ho) hs.2

/-- Adams's method, whatever was left in its working memory: the state stays in `M` and the history in `T`. -/
theorem zODEUpdateAdams_keeps [LinearOrder K] (near : V → V → Bool) (step : Nat) (h : Contract o u M T) (t : K) (x : V) (dt : K) (x2 : V)
    (r : ODE.Ring V) (hx : M x) (hr : InRing T r) :
    Yields (zODEUpdateAdams near step o t x dt x2 r u) (fun s => M s.1 ∧ InRing T s.2) :=
  (adamsStep_keeps h step t x x _ dt r.dec hx hx hr).bind fun s hs =>
  (adamsCorrect_keeps h near step (t + dt) x _ dt hx 10000 s.1 x2 s.2.dec hs.1 (fun h => by omega) hs.2).bind fun _ hs => Yields.ok hs

end

/-! A circle: states are the numbers from 0 to 1, one turn is 1; the functions are defined for the pointer `true` only. -/

/-- `cat` on the circle. -/
def circleCat (x dt dx : ℚ) (p : Bool) : Res ℚ := if p ∧ 0 ≤ x ∧ x < 1 then .ok (Int.fract (x + dt * dx)) else .ub

/-- `sub` on the circle: the shortest way from `x2` to `x1`. -/
def circleSub (x1 x2 : ℚ) (p : Bool) : Res ℚ := if p then .ok (Int.fract (x1 - x2 + 1/2) - 1/2) else .ub

/-- The equation `x' = a x + c`, defined on the circle only. -/
def circle (a c : ℚ) : Solver ℚ ℚ Bool :=
  assign (fun _ x p => if p ∧ 0 ≤ x ∧ x < 1 then .ok (a * x + c) else .ub) (some circleCat) (some circleSub)

theorem circle_contract (a c : ℚ) : Contract (circle a c) true (fun x => 0 ≤ x ∧ x < 1) ⊤ where
  f_ok := fun _ x hx => ⟨a * x + c, if_pos ⟨rfl, hx⟩, trivial⟩
  cat_ok := fun x dt dx hx _ => ⟨Int.fract (x + dt * dx), if_pos ⟨rfl, hx⟩, Int.fract_nonneg _, Int.fract_lt_one _⟩

example : Yields (zODEUpdateRK4 (circle 1 3) 0 (3/4) (1/2) true) (fun x => 0 ≤ x ∧ x < 1) :=
  zODEUpdateRK4_keeps (circle_contract 1 3) _ _ _ (by norm_num)

example : Yields (zODEUpdateERK ODE.dp45 (fun a b => |a - b|) (1/1000000) (1/100000000) (circle 1 3) true 26 0 (3/4) (1/4))
    (fun x => 0 ≤ x ∧ x < 1) :=
  zODEUpdateERK_keeps ODE.dp45 (by decide) _ _ _ (circle_contract 1 3) 25 _ _ _ (by norm_num) (by norm_num)

/-! ## With the default functions the solvers are those of the model without functions of the caller -/

section
variable {K V P : Type*} [Field K] [AddCommGroup V] [Module K V]

/-- With the pointer `u` the functions are `f` and the default ones. -/
structure PlainAt (o : Solver K V P) (f : K → V → V) (u : P) : Prop where
  f_eq : ∀ t x, o.f t x u = .ok (f t x)
  cat_eq : ∀ x dt dx, o.cat x dt dx u = .ok (x + dt • dx)
  sub_eq : ∀ x1 x2, o.sub x1 x2 u = .ok (x1 - x2)

theorem assign_plain (f : K → V → P → V) (u : P) : PlainAt (assign (fun t x p => .ok (f t x p)) none none) (fun t x => f t x u) u :=
  ⟨fun _ _ => rfl, fun _ _ _ => rfl, fun _ _ => rfl⟩

variable {o : Solver K V P} {u : P} {f : K → V → V}

theorem zODEUpdateEuler_plain (h : PlainAt o f u) (t : K) (x : V) (dt : K) : zODEUpdateEuler o t x dt u = .ok (ODE.zODEUpdateEuler f t x dt) := by
  simp only [zODEUpdateEuler, h.f_eq, h.cat_eq, Res.bind]
  rfl

theorem zODEUpdateHeun_plain (h : PlainAt o f u) (t : K) (x : V) (dt : K) : zODEUpdateHeun o t x dt u = .ok (ODE.zODEUpdateHeun f t x dt) := by
  simp only [zODEUpdateHeun, h.f_eq, h.cat_eq, Res.bind]
  rfl

theorem zODEUpdateRK4_plain (h : PlainAt o f u) (t : K) (x : V) (dt : K) : zODEUpdateRK4 o t x dt u = .ok (ODE.zODEUpdateRK4 f t x dt) := by
  simp only [zODEUpdateRK4, h.f_eq, h.cat_eq, Res.bind]
  rfl

theorem zODEUpdateRKG_plain (r2 : K) (h : PlainAt o f u) (t : K) (x : V) (dt : K) :
    zODEUpdateRKG r2 o t x dt u = .ok (ODE.zODEUpdateRKG r2 f t x dt) := by
  simp only [zODEUpdateRKG, h.f_eq, h.cat_eq, Res.bind]
  rfl

theorem forUpM_pure {σ : Type*} (lo hi : Nat) (b : Nat → σ → Res σ) (g : Nat → σ → σ) (h : ∀ i s, b i s = .ok (g i s)) (s : σ) :
    forUpM lo hi b s = .ok (forUp lo hi g s) := by
  unfold forUpM forUp
  generalize hi - lo = k
  induction k generalizing lo s with
  | zero => rfl
  | succ k ih => simp only [forNM, forN, h, Res.bind]; exact ih _ _

theorem erkStages_plain (h : PlainAt o f u) (n : Nat) (a c : Nat → K) (t : K) (x : V) (dt : K) :
    ∃ l, erkStages o n a c t x dt u = .ok (ODE.erkStages f n a c t x dt, l) := by
  have harg : ∀ (k : Nat → V) i l, erkArg o a dt k x i l u = .ok (ODE.erkArg a dt k x i l) := fun k i l =>
    forUpM_pure 0 i _ (fun j (s : V × Nat) => (ODE.cat s.1 (a s.2 * dt) (k j), s.2 + 1)) (fun j s => by simp only [h.cat_eq, Res.bind]; rfl) _
  refine ⟨(forUp 1 n (fun i (s : (Nat → V) × Nat) => (set1 s.1 i (f (t + c (i-1) * dt) (ODE.erkArg a dt s.1 x i s.2).1),
    (ODE.erkArg a dt s.1 x i s.2).2)) (set1 (fun _ => 0) 0 (f t x), 0)).2, ?_⟩
  unfold erkStages ODE.erkStages
  simp only [h.f_eq, Res.bind]
  rw [forUpM_pure 1 n _ (fun i (s : (Nat → V) × Nat) =>
    (set1 s.1 i (f (t + c (i-1) * dt) (ODE.erkArg a dt s.1 x i s.2).1), (ODE.erkArg a dt s.1 x i s.2).2))
    (fun i s => by simp only [harg])]

theorem erkSums_plain (h : PlainAt o f u) (n : Nat) (bc bf : Nat → K) (k : Nat → V) (x : V) (dt : K) :
    erkSums o n bc bf k x dt u = .ok (ODE.erkSum n bc k x dt, ODE.erkSum n bf k x dt) := by
  unfold erkSums
  rw [forUpM_pure 0 n _ (fun i (s : V × V) => (ODE.cat s.1 (bc i * dt) (k i), ODE.cat s.2 (bf i * dt) (k i)))
    (fun i s => by simp only [h.cat_eq, Res.bind]; rfl)]
  congr 1
  unfold ODE.erkSum
  refine forUp_inv (lo := 0) (hi := n) (fun i (s : V × V) => (ODE.cat s.1 (bc i * dt) (k i), ODE.cat s.2 (bf i * dt) (k i))) (x, x)
    (fun m s => s = (forUp 0 m (fun i s => ODE.cat s (bc i * dt) (k i)) x, forUp 0 m (fun i s => ODE.cat s (bf i * dt) (k i)) x))
    (Nat.zero_le _) rfl ?_
  rintro m s - - rfl
  rw [forUp_succ (Nat.zero_le _), forUp_succ (Nat.zero_le _)]

/-- The embedded methods, when both recursions come to their end. -/
theorem zODEUpdateERK_plain [LinearOrder K] (T : Tab K) (dist : V → V → K) (tol dtol : K) (h : PlainAt o f u) (fuel : Nat) (t : K) (x : V)
    (dt : K) (y : V) : zODEUpdateERK T dist tol dtol o u fuel t x dt = .ok y ↔ ODE.zODEUpdateERK T dist tol dtol f fuel t x dt = .ok y := by
  induction fuel generalizing t x dt y with
  | zero => simp [zODEUpdateERK, ODE.zODEUpdateERK]
  | succ n ih =>
    obtain ⟨l, hl⟩ := erkStages_plain h T.n T.a T.c t x dt
    simp only [zODEUpdateERK, ODE.zODEUpdateERK, hl, Res.bind, erkSums_plain h]
    change (if dt > dtol ∧ dist (ODE.erkCoarse T f t x dt) (ODE.erkFine T f t x dt) > tol then _ else _) = _ ↔ _
    split
    · cases h1 : zODEUpdateERK T dist tol dtol o u n t x (dt * (1/2)) with
      | ok z => rw [(ih _ _ _ _).1 h1]; exact ih _ _ _ _
      | fail =>
        cases h2 : ODE.zODEUpdateERK T dist tol dtol f n t x (dt * (1/2)) with
        | ok z => rw [(ih _ _ _ _).2 h2] at h1; exact absurd h1 (by simp)
        | fail => simp
        | ub => simp
      | ub =>
        cases h2 : ODE.zODEUpdateERK T dist tol dtol f n t x (dt * (1/2)) with
        | ok z => rw [(ih _ _ _ _).2 h2] at h1; exact absurd h1 (by simp)
        | fail => simp
        | ub => simp
    · exact Iff.rfl

theorem adamsStep_plain (h : PlainAt o f u) (n : Nat) (t : K) (x xorg : V) (w : Nat → K) (dt : K) (r : ODE.Ring V) :
    adamsStep n o t x xorg w dt r u = .ok (ODE.adamsStep n f t x xorg w dt r) := by
  simp only [adamsStep, h.f_eq, h.cat_eq, Res.bind]
  rfl

theorem adamsCorrect_plain (h : PlainAt o f u) (near : V → V → Bool) (n : Nat) (t2 : K) (x : V) (wm : Nat → K) (dt : K) (m : Nat)
    (xold xnew : V) (r : ODE.Ring V) :
    adamsCorrect near n o t2 x wm dt u m xold xnew r = .ok (ODE.adamsCorrect near n f t2 x wm dt m xold xnew r) := by
  induction m generalizing xold xnew r with
  | zero => rfl
  | succ m ih =>
    simp only [adamsCorrect, ODE.adamsCorrect, adamsStep_plain h, Res.bind]
    split
    · rfl
    · exact ih _ _ _

theorem zODEUpdateAdams_plain [LinearOrder K] (near : V → V → Bool) (step : Nat) (h : PlainAt o f u) (t : K) (x : V) (dt : K) (x2 : V)
    (r : ODE.Ring V) : zODEUpdateAdams near step o t x dt x2 r u = .ok (ODE.zODEUpdateAdams near step f t x dt x2 r) := by
  simp only [zODEUpdateAdams, adamsStep_plain h, adamsCorrect_plain h, Res.bind]
  rfl

/-- Deferred correction on top of a method `g`, when both recursions come to their end. -/
theorem zODEUpdateDC_plain [LinearOrder K] (dist : V → V → K) (tol : K) (upd : K → V → K → P → Res V) (g : K → V → K → V) (h : PlainAt o f u)
    (hg : ∀ t x dt, upd t x dt u = .ok (g t x dt)) (fuel : Nat) (t : K) (x : V) (dt : K) (y : V) :
    zODEUpdateDC dist tol upd o u fuel t x dt = .ok y ↔ ODE.zODEUpdateDC dist tol g fuel t x dt = .ok y := by
  induction fuel generalizing t x dt y with
  | zero => simp [zODEUpdateDC, ODE.zODEUpdateDC]
  | succ n ih =>
    simp only [zODEUpdateDC, ODE.zODEUpdateDC, hg, Res.bind, h.sub_eq]
    split
    · cases h1 : zODEUpdateDC dist tol upd o u n t x (dt * (1/2)) with
      | ok z => rw [(ih _ _ _ _).1 h1]; exact ih _ _ _ _
      | fail =>
        cases h2 : ODE.zODEUpdateDC dist tol g n t x (dt * (1/2)) with
        | ok z => rw [(ih _ _ _ _).2 h2] at h1; exact absurd h1 (by simp)
        | fail => simp
        | ub => simp
      | ub =>
        cases h2 : ODE.zODEUpdateDC dist tol g n t x (dt * (1/2)) with
        | ok z => rw [(ih _ _ _ _).2 h2] at h1; exact absurd h1 (by simp)
        | fail => simp
        | ub => simp
    · exact Iff.rfl

/-- The equations of the implicit methods and their final steps are those of the default functions, whatever the functions do with any pointer
but the caller's. -/
theorem implicit_plain (s3 : K) (h : PlainAt o f u) (t : K) (x : V) (dt : K) (x' k1 k2 : V) :
    zODEBEulerEq o t x dt u x' = .ok (ODE.zODEBEulerEq f t x dt x') ∧ zODETREq o t x dt u x' = .ok (ODE.zODETREq f t x dt x') ∧
    zODEGaussEq s3 o t x dt u k1 k2 = .ok (ODE.zODEGaussEq s3 f t x dt k1 k2) ∧ zODEGaussEnd o x dt u k1 k2 = .ok (ODE.zODEGaussEnd x dt k1 k2) ∧
    zODERadauEq o t x dt u k1 k2 = .ok (ODE.zODERadauEq f t x dt k1 k2) ∧ zODERadauEnd o x dt u k1 k2 = .ok (ODE.zODERadauEnd x dt k1 k2) := by
  refine ⟨?_, ?_, ?_, ?_, ?_, ?_⟩
  · simp only [zODEBEulerEq, beulerFunc, h.f_eq, h.cat_eq, h.sub_eq, Res.bind]; rfl
  · simp only [zODETREq, beulerFunc, h.f_eq, h.cat_eq, h.sub_eq, Res.bind]; rfl
  · simp only [zODEGaussEq, bk4Func, h.f_eq, h.cat_eq, h.sub_eq, Res.bind]; rfl
  · simp only [zODEGaussEnd, h.cat_eq, Res.bind]; rfl
  · simp only [zODERadauEq, bk4Func, h.f_eq, h.cat_eq, h.sub_eq, Res.bind]; rfl
  · simp only [zODERadauEnd, h.cat_eq, Res.bind]; rfl

/-- Gear's equation is the one of the default functions if they are the default ones for the pointer to the solver as well. -/
theorem zODEGearEq_plain_partial (self : P) (h : PlainAt o f u) (hs : ∀ x dt dx, o.cat x dt dx self = .ok (x + dt • dx)) (step : Nat) (t : K)
    (x : V) (dt : K) (r : ODE.Ring V) (x' : V) :
    zODEGearEq step o t x dt r self u x' = .ok (ODE.gearFunc step f t dt (ODE.gearHist r x) x') := by
  unfold zODEGearEq gearFunc
  rw [forUpM_pure 0 step _ (fun i y => ODE.cat y (gearA step i : K) ((r.setHead x).elem i)) (fun i s => hs _ _ _)]
  simp only [h.f_eq, h.cat_eq, Res.bind]
  rfl

/-- Gear's method hands `cat` a pointer the caller never gave: if `cat` is not defined for it, the equation is undefined everywhere. -/
theorem zODEGearEq_util_violated (self : P) (hs : ∀ x dt dx, o.cat x dt dx self = .ub) (step : Nat) (h1 : 1 ≤ step) (t : K) (x : V) (dt : K)
    (r : ODE.Ring V) (x' : V) : zODEGearEq step o t x dt r self u x' = .ub := by
  unfold zODEGearEq gearFunc forUpM
  obtain ⟨k, rfl⟩ : ∃ k, step = k + 1 := ⟨step - 1, by omega⟩
  simp only [Nat.add_sub_cancel, Nat.sub_zero, forNM, hs, Res.bind]

/-! ## Second-order equations -/

/-- What the caller promises for an equation of second order: displacements in `M`, velocities and accelerations in `T`. -/
structure Contract2 (o : Solver2 K V P) (u : P) (M : V → Prop) (T : Submodule K V) : Prop where
  f_ok : ∀ t x v, M x → v ∈ T → Yields (o.f t x v u) (· ∈ T)
  dis_ok : ∀ x dt v, M x → v ∈ T → Yields (o.cat_dis x dt v u) M
  vel_ok : ∀ v dt a, v ∈ T → a ∈ T → Yields (o.cat_vel v dt a u) (· ∈ T)

variable {o2 : Solver2 K V P} {M : V → Prop} {T : Submodule K V}

/-- The solver inside keeps to a contract of its own with the pointer to the outer solver. -/
theorem inner_contract (h : Contract2 o2 u M T) : Contract (inner o2 u) .ode2 (fun y => M y.1 ∧ y.2 ∈ T) (T.prod T) where
  f_ok := fun t y hy => (h.f_ok t y.1 y.2 hy.1 hy.2).bind fun _ ha => Yields.ok ⟨hy.2, ha⟩
  cat_ok := fun y dt dy hy hd => (h.dis_ok y.1 dt dy.1 hy.1 hd.1).bind fun _ hx => (h.vel_ok y.2 dt dy.2 hy.2 hd.2).bind fun _ hv => Yields.ok ⟨hx, hv⟩

/-- The regular solver on top of any method that keeps the contract. -/
theorem zODE2UpdateRegular_keeps (upd : Solver K (V × V) Addr → K → V × V → K → Addr → Res (V × V))
    (hu : ∀ (o : Solver K (V × V) Addr) (p : Addr) (M : V × V → Prop) (T : Submodule K (V × V)), Contract o p M T → ∀ t x dt, M x →
      Yields (upd o t x dt p) M) (h : Contract2 o2 u M T) (t : K) (x v : V) (dt : K) (hx : M x) (hv : v ∈ T) :
    Yields (zODE2UpdateRegular upd o2 t x v dt u) (fun y => M y.1 ∧ y.2 ∈ T) :=
  hu _ _ _ _ (inner_contract h) t (x, v) dt ⟨hx, hv⟩

theorem zODE2UpdateSymplectic_keeps (h : Contract2 o2 u M T) (t : K) (x v : V) (dt : K) (hx : M x) (hv : v ∈ T) :
    Yields (zODE2UpdateSymplectic o2 t x v dt u) (fun y => M y.1 ∧ y.2 ∈ T) :=
  (h.f_ok t x v hx hv).bind fun _ ha => (h.vel_ok _ _ _ hv ha).bind fun _ hv => (h.dis_ok _ _ _ hx hv).bind fun _ hx => Yields.ok ⟨hx, hv⟩

theorem zODE2UpdateLeapfrog_keeps (h : Contract2 o2 u M T) (t : K) (x v vh : V) (dt : K) (hx : M x) (hv : v ∈ T) (hh : vh ∈ T) :
    Yields (zODE2UpdateLeapfrog o2 t x v vh dt u) (fun y => M y.1 ∧ y.2.1 ∈ T ∧ y.2.2 ∈ T) :=
  (h.f_ok t x v hx hv).bind fun _ ha => (h.vel_ok _ _ _ hh ha).bind fun _ hh => (h.dis_ok _ _ _ hx hh).bind fun _ hx =>
  (h.f_ok t _ _ hx hh).bind fun _ ha => (h.vel_ok _ _ _ hh ha).bind fun _ hv => Yields.ok ⟨hx, hv, hh⟩

/-- With the pointer `u` the functions are `g` and the default ones of `zODE2AssignFunc`, zm_ode2.c:14-20. -/
structure PlainAt2 (o : Solver2 K V P) (g : K → V → V → V) (u : P) : Prop where
  f_eq : ∀ t x v, o.f t x v u = .ok (g t x v)
  dis_eq : ∀ x dt v, o.cat_dis x dt v u = .ok (x + dt • v)
  vel_eq : ∀ v dt a, o.cat_vel v dt a u = .ok (v + dt • a)
  sub_dis_eq : ∀ x1 x2, o.sub_dis x1 x2 u = .ok (x1 - x2)
  sub_vel_eq : ∀ v1 v2, o.sub_vel v1 v2 u = .ok (v1 - v2)

variable {g : K → V → V → V}

/-- The solver inside has the default functions of pairs, so the theorems above apply to it. -/
theorem inner_plain (h : PlainAt2 o2 g u) : PlainAt (inner o2 u) (fun t (y : V × V) => (y.2, g t y.1 y.2)) .ode2 where
  f_eq := fun t y => by show (o2.f t y.1 y.2 u).bind _ = _; rw [h.f_eq]; rfl
  cat_eq := fun y dt dy => by
    show (o2.cat_dis y.1 dt dy.1 u).bind (fun xn => (o2.cat_vel y.2 dt dy.2 u).bind fun vn => .ok (xn, vn)) = _
    rw [h.dis_eq, h.vel_eq]; rfl
  sub_eq := fun y1 y2 => by
    show (o2.sub_dis y1.1 y2.1 u).bind (fun dx => (o2.sub_vel y1.2 y2.2 u).bind fun dv => .ok (dx, dv)) = _
    rw [h.sub_dis_eq, h.sub_vel_eq]; rfl

theorem zODE2UpdateRegular_plain (upd : Solver K (V × V) Addr → K → V × V → K → Addr → Res (V × V))
    (m : (K → V × V → V × V) → K → V × V → K → V × V)
    (hm : ∀ (o : Solver K (V × V) Addr) f p, PlainAt o f p → ∀ t x dt, upd o t x dt p = .ok (m f t x dt)) (h : PlainAt2 o2 g u) (t : K) (x v : V)
    (dt : K) : zODE2UpdateRegular upd o2 t x v dt u = .ok (ODE.zODE2UpdateRegular m g t x v dt) :=
  hm _ _ _ (inner_plain h) t (x, v) dt

theorem zODE2UpdateSymplectic_plain (h : PlainAt2 o2 g u) (t : K) (x v : V) (dt : K) :
    zODE2UpdateSymplectic o2 t x v dt u = .ok (ODE.zODE2UpdateSymplectic g t x v dt) := by
  simp only [zODE2UpdateSymplectic, h.f_eq, h.dis_eq, h.vel_eq, Res.bind]
  rfl

theorem zODE2UpdateLeapfrog_plain (h : PlainAt2 o2 g u) (t : K) (x v vh : V) (dt : K) :
    zODE2UpdateLeapfrog o2 t x v vh dt u = .ok (ODE.zODE2UpdateLeapfrog g t x v vh dt) := by
  simp only [zODE2UpdateLeapfrog, h.f_eq, h.dis_eq, h.vel_eq, Res.bind]
  rfl

/-- On top of Gear's method the regular solver is undefined for every equation, default functions or not: the `zODE` inside is taken for the
`zODE2` around it. -/
theorem zODE2UpdateRegular_gear_violated (o2 : Solver2 K V P) (u : P) (step : Nat) (h1 : 1 ≤ step) (t : K) (x v : V) (dt : K)
    (r : ODE.Ring (V × V)) (y : V × V) : zODEGearEq step (inner o2 u) t (x, v) dt r .ode .ode2 y = .ub :=
  zODEGearEq_util_violated _ (fun _ _ _ => rfl) step h1 _ _ _ _ _

end

example : Contract2 (K := ℚ) (V := ℚ) (P := Bool)
    { f := fun _ x v p => if p ∧ 0 ≤ x ∧ x < 1 then .ok (-x - v) else .ub
      cat_dis := circleCat
      cat_vel := fun v dt a p => if p then .ok (v + dt * a) else .ub
      sub_dis := circleSub
      sub_vel := fun _ _ _ => .ub } true (fun x => 0 ≤ x ∧ x < 1) ⊤ where
  f_ok := fun _ x v hx _ => ⟨-x - v, if_pos ⟨rfl, hx⟩, trivial⟩
  dis_ok := fun x dt v hx _ => ⟨Int.fract (x + dt * v), if_pos ⟨rfl, hx⟩, Int.fract_nonneg _, Int.fract_lt_one _⟩
  vel_ok := fun v dt a _ _ => ⟨v + dt * a, rfl, trivial⟩

/-! ## Where the functions of the caller are misused -/

/-- Deferred correction doubles a state outside of `cat`: at rest on the circle at 3/4 it goes to -1/4, which is no state. -/
theorem zODEUpdateDC_violated : zODEUpdateDC (fun a b => |a - b|) (1/1000000) (zODEUpdateEuler (circle 0 0)) (circle 0 0) true 1 0 (3/4) 1 = .ok (-1/4) := by
  decide +kernel

/-- Gauss's and Radau's methods take the difference of two derivatives with `sub`, which is meant for states: on the circle, at one turn per unit
of time, their starting point `k1 = k2 = 0` solves the equation, and the state does not move at all. -/
theorem bk4_sub_violated (s3 t dt : ℚ) : zODEGaussEq s3 (circle 0 1) t (1/2) dt true 0 0 = .ok (0, 0) ∧
    zODERadauEq (circle 0 1) t (1/2) dt true 0 0 = .ok (0, 0) ∧ zODEGaussEnd (circle 0 1) (1/2) dt true 0 0 = .ok (1/2) ∧
    zODERadauEnd (circle 0 1) (1/2) dt true 0 0 = .ok (1/2) ∧ zODEUpdateEuler (circle 0 1) t (1/2) (1/4) true = .ok (3/4) := by
  have hc : ∀ s : ℚ, (circle 0 1).cat (1/2) s 0 true = .ok (1/2) := by
    intro s
    show circleCat (1/2) s 0 true = _
    unfold circleCat
    rw [mul_zero]
    decide +kernel
  have hf : ∀ s : ℚ, (circle 0 1).f s (1/2) true = .ok 1 := by
    intro s
    show (if (true = true) ∧ (0 : ℚ) ≤ 1/2 ∧ (1/2 : ℚ) < 1 then Res.ok ((0 : ℚ) * (1/2) + 1) else .ub) = _
    decide +kernel
  have hs : (circle 0 1).sub 0 1 true = .ok 0 := by decide +kernel
  refine ⟨?_, ?_, ?_, ?_, ?_⟩
  · simp only [zODEGaussEq, bk4Func, hc, hf, hs, Res.bind]
  · simp only [zODERadauEq, bk4Func, hc, hf, hs, Res.bind]
  · simp only [zODEGaussEnd, hc, Res.bind]
  · simp only [zODERadauEnd, hc, Res.bind]
  · simp only [zODEUpdateEuler, hf, Res.bind]
    decide +kernel

end Zm.ODEUser
