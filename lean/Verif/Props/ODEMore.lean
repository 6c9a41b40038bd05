import Verif.Props.ODERK

set_option linter.unusedSectionVars false
set_option linter.unusedVariables false

/-! # Embedded, multistep and implicit methods, second-order equations and integrators: C52, C54, C55, C89, C90 -/

namespace Zm.ODE
open Zm Polynomial

section
variable {K V : Type*} [Field K] [CharZero K] [AddCommGroup V] [Module K V]

/-- C52: the accepted estimate of the Runge-Kutta-Fehlberg method is of order five. -/
theorem rkf45_order : HasOrder K V (erkFine rkf45) 5 :=
  ⟨6, erkA rkf45, (rkf45 : Tab K).bf, erkC rkf45, erkA_zero _, rkf45_fine, fun f t x dt => (erk_isRK rkf45 (by norm_num [rkf45]) f t x dt).1⟩

/-- C52: the accepted estimate of the Dormand-Prince method is of order five. -/
theorem dp45_order : HasOrder K V (erkFine dp45) 5 :=
  ⟨7, erkA dp45, (dp45 : Tab K).bf, erkC dp45, erkA_zero _, dp45_fine, fun f t x dt => (erk_isRK dp45 (by norm_num [dp45]) f t x dt).1⟩

/-- The part of C52 that holds for the Cash-Karp method: the accepted estimate is of order four, and the one that is compared with it is of
order five. -/
theorem ck45_order_partial : HasOrder K V (erkFine ck45) 4 ∧ HasOrder K V (erkCoarse ck45) 5 :=
  ⟨⟨6, erkA ck45, (ck45 : Tab K).bf, erkC ck45, erkA_zero _, ck45_fine, fun f t x dt => (erk_isRK ck45 (by norm_num [ck45]) f t x dt).1⟩,
    ⟨6, erkA ck45, (ck45 : Tab K).bc, erkC ck45, erkA_zero _, ck45_coarse, fun f t x dt => (erk_isRK ck45 (by norm_num [ck45]) f t x dt).2⟩⟩

/-- C52 is violated by the Cash-Karp method: the two rows of weights are exchanged, so the accepted estimate is not of order five; the
integral of `5 t^4` is wrong for every step. -/
theorem ck45_order_violated (dt : K) (hdt : dt ≠ 0) : erkFine ck45 (fun t _ => 5 * t ^ 4) (0 : K) (0 : K) dt = 82197/81920 * dt ^ 5 ∧
    erkFine ck45 (fun t _ => 5 * t ^ 4) (0 : K) (0 : K) dt ≠ dt ^ 5 := by
  have e : erkFine ck45 (fun t _ => 5 * t ^ 4) (0 : K) (0 : K) dt = 82197/81920 * dt ^ 5 := by
    obtain ⟨k, hk, hx⟩ := (erk_isRK (V := K) ck45 (by norm_num [ck45]) (fun t _ => 5 * t ^ 4) 0 0 dt).1
    rw [hx]
    have : ∀ i ∈ Finset.range (ck45 : Tab K).n, (ck45 : Tab K).bf i • k i = (ck45 : Tab K).bf i * (5 * (0 + ck45C i * dt) ^ 4) := by
      intro i hi
      rw [hk i (Finset.mem_range.1 hi), ck45_erk.2 i (Finset.mem_range.1 hi)]; rfl
    rw [Finset.sum_congr rfl this]
    norm_num [ck45, ck45C, Finset.sum_range_succ, tbl]
    ring
  refine ⟨e, ?_⟩
  rw [e]
  intro h
  have h5 : dt ^ 5 ≠ 0 := pow_ne_zero 5 hdt
  have : (82197/81920 - 1 : K) * dt ^ 5 = 0 := by linear_combination h
  rcases mul_eq_zero.1 this with h | h
  · norm_num at h
  · exact h5 h

section
variable [LinearOrder K] [IsStrictOrderedRing K]

/-- A composition of steps of the fine estimate, each of them accepted, over the interval from `t` to `t + dt`. -/
inductive Accepted (T : Tab K) (dist : V → V → K) (tol dtol : K) (f : K → V → V) : K → V → K → V → Prop
  | step (t x dt) (h : dt ≤ dtol ∨ dist (erkCoarse T f t x dt) (erkFine T f t x dt) ≤ tol) :
      Accepted T dist tol dtol f t x dt (erkFine T f t x dt)
  | halves (t x dt y z) (h1 : Accepted T dist tol dtol f t x (dt/2) y) (h2 : Accepted T dist tol dtol f (t + dt/2) y (dt/2) z) :
      Accepted T dist tol dtol f t x dt z

/-- The adaptive update is a composition of accepted steps that covers the interval. -/
theorem zODEUpdateERK_accepted (T : Tab K) (dist : V → V → K) (tol dtol : K) (f : K → V → V) (fuel : Nat) (t : K) (x : V) (dt : K) (y : V)
    (h : zODEUpdateERK T dist tol dtol f fuel t x dt = .ok y) : Accepted T dist tol dtol f t x dt y := by
  induction fuel generalizing t x dt y with
  | zero => simp [zODEUpdateERK] at h
  | succ n ih =>
    unfold zODEUpdateERK at h
    split_ifs at h with hc
    · cases hz : zODEUpdateERK T dist tol dtol f n t x (dt * (1/2)) with
      | ok z =>
        rw [hz] at h
        have e : dt * (1/2) = dt / 2 := by ring
        rw [e] at hz h
        exact .halves t x dt z y (ih _ _ _ _ hz) (ih _ _ _ _ h)
      | fail => rw [hz] at h; simp [Res.bind] at h
      | ub => rw [hz] at h; simp [Res.bind] at h
    · simp only [Res.ok.injEq] at h
      rw [← h]
      refine .step t x dt ?_
      by_contra hcon
      push Not at hcon
      exact hc hcon

/-- The recursion ends: its depth is bounded by the number of halvings down to the smallest step. -/
theorem zODEUpdateERK_total (T : Tab K) (dist : V → V → K) (tol dtol : K) (f : K → V → V) (n : Nat) (t : K) (x : V) (dt : K)
    (h : dt ≤ dtol * 2 ^ n) : ∃ y, zODEUpdateERK T dist tol dtol f (n+1) t x dt = .ok y := by
  induction n generalizing t x dt with
  | zero =>
    unfold zODEUpdateERK
    rw [if_neg (by rintro ⟨h1, _⟩; simp at h; exact absurd h1 (not_lt.2 h))]
    exact ⟨_, rfl⟩
  | succ n ih =>
    unfold zODEUpdateERK
    split_ifs with hc
    · have h2 : dt * (1/2) ≤ dtol * 2 ^ n := by rw [pow_succ] at h; linarith
      obtain ⟨z, hz⟩ := ih t x (dt * (1/2)) h2
      obtain ⟨y, hy⟩ := ih (t + dt * (1/2)) z (dt * (1/2)) h2
      rw [hz]
      exact ⟨y, hy⟩
    · exact ⟨_, rfl⟩

/-- C52: also with any subdivision of the interval, polynomials are integrated exactly. -/
theorem Accepted.exact {ι : Type*} {T : Tab K} {p : Nat} (hT : HasOrder K (ι → K) (erkFine T) p) {dist : (ι → K) → (ι → K) → K} {tol dtol : K}
    (P : ι → K[X]) (hP : ∀ i, (P i).natDegree ≤ p) {t dt : K} {x y : ι → K}
    (h : Accepted T dist tol dtol (fun t _ i => (P i).derivative.eval t) t x dt y) : y = fun i => x i + ((P i).eval (t + dt) - (P i).eval t) := by
  induction h with
  | step t x dt _ => exact hT.exact P hP t x dt
  | halves t x dt y z _ _ ih1 ih2 =>
    rw [ih2, ih1]
    funext i
    rw [show t + dt/2 + dt/2 = t + dt by ring]
    ring

/-- C52 for the whole update with the Runge-Kutta-Fehlberg and Dormand-Prince methods: for every tolerance and every way of measuring the
error, a right-hand side that is a polynomial of degree at most four in time is integrated exactly. -/
theorem zODEUpdateERK_exact {ι : Type*} (dist : (ι → K) → (ι → K) → K) (tol dtol : K) (P : ι → K[X]) (hP : ∀ i, (P i).natDegree ≤ 5)
    (fuel : Nat) (t dt : K) (x y : ι → K) (T : Tab K) (hT : T = rkf45 ∨ T = dp45)
    (h : zODEUpdateERK T dist tol dtol (fun t _ i => (P i).derivative.eval t) fuel t x dt = .ok y) :
    y = fun i => x i + ((P i).eval (t + dt) - (P i).eval t) := by
  refine Accepted.exact (T := T) (p := 5) ?_ P hP (zODEUpdateERK_accepted _ _ _ _ _ _ _ _ _ _ h)
  rcases hT with rfl | rfl
  · exact rkf45_order
  · exact dp45_order

example : (1/4 : ℚ) ≤ (1/100000000) * 2 ^ 25 := by norm_num

/-- Deferred correction on top of the Euler method is exact for right-hand sides that are affine in time, for every tolerance. -/
theorem zODEUpdateDC_exact {ι : Type*} (dist : (ι → K) → (ι → K) → K) (tol : K) (P : ι → K[X]) (hP : ∀ i, (P i).natDegree ≤ 2) (fuel : Nat)
    (t dt : K) (x y : ι → K)
    (h : zODEUpdateDC dist tol (zODEUpdateEuler fun t _ i => (P i).derivative.eval t) fuel t x dt = .ok y) :
    y = fun i => x i + ((P i).eval (t + dt) - (P i).eval t) := by
  induction fuel generalizing t dt x y with
  | zero => simp [zODEUpdateDC] at h
  | succ n ih =>
    unfold zODEUpdateDC at h
    dsimp only at h
    split_ifs at h with hc
    · cases hz : zODEUpdateDC dist tol (zODEUpdateEuler fun t _ i => (P i).derivative.eval t) n t x (dt * (1/2)) with
      | ok z =>
        rw [hz] at h
        rw [ih _ _ _ _ h, ih _ _ _ _ hz]
        funext i
        rw [show t + dt * (1/2) + dt * (1/2) = t + dt by ring]
        ring
      | fail => rw [hz] at h; simp [Res.bind] at h
      | ub => rw [hz] at h; simp [Res.bind] at h
    · simp only [Res.ok.injEq] at h
      rw [← h]
      funext i
      simp only [sub, zODEUpdateEuler, cat, Pi.sub_apply, Pi.smul_apply, Pi.add_apply, smul_eq_mul]
      have hd : ((P i).derivative).natDegree < 2 := by
        have := natDegree_derivative_le (P i); have := hP i; omega
      simp only [eval_eq_sum_range' (Nat.lt_succ_of_le (hP i)), eval_eq_sum_range' hd, Finset.sum_range_succ, Finset.sum_range_zero, coeff_derivative]
      push_cast
      ring
end

/-! ## Rings -/

theorem Ring.elem_setHead (r : Ring V) (x : V) (i : Nat) (hi : i < r.size) : (r.setHead x).elem i = if i = 0 then x else r.elem i := by
  unfold Ring.elem Ring.setHead
  dsimp only
  by_cases h : i = 0
  · subst h; simp
  · rw [if_neg h, set1_ne]
    intro he
    have := Nat.ModEq.add_left_cancel' r.head (show r.head + i ≡ r.head + 0 [MOD r.size] from he)
    have := Nat.ModEq.eq_of_lt_of_lt this hi (by omega)
    exact h this

theorem Ring.elem_dec (r : Ring V) (i : Nat) (hs : 0 < r.size) : r.dec.elem (i+1) = r.elem i := by
  unfold Ring.elem Ring.dec
  dsimp only
  congr 1
  rw [Nat.mod_add_mod, show r.head + r.size - 1 + (i + 1) = r.head + i + r.size by omega, Nat.add_mod_right]

theorem Ring.elem_inc (r : Ring V) (i : Nat) : r.inc.elem i = r.elem (i+1) := by
  unfold Ring.elem Ring.inc
  dsimp only
  congr 1
  rw [Nat.mod_add_mod]
  congr 1; omega

@[simp] theorem Ring.size_dec (r : Ring V) : r.dec.size = r.size := rfl
@[simp] theorem Ring.size_inc (r : Ring V) : r.inc.size = r.size := rfl
@[simp] theorem Ring.size_setHead (r : Ring V) (x : V) : (r.setHead x).size = r.size := rfl

/-! ## Gear's method -/

/-- The backward differentiation formula of `k` steps is exact for polynomials of degree at most `k`. -/
theorem gear_formula (k : Nat) (h1 : 1 ≤ k) (h6 : k ≤ 6) (P : K[X]) (hP : P.natDegree ≤ k) (t dt : K) :
    P.eval (t + dt) + ∑ i ∈ Finset.range k, gearA k i * P.eval (t - i * dt) - gearB k * dt * P.derivative.eval (t + dt) = 0 := by
  have hd : P.derivative.natDegree < k := by have := natDegree_derivative_le P; omega
  interval_cases k <;>
  simp only [eval_eq_sum_range' (Nat.lt_succ_of_le hP), eval_eq_sum_range' hd, Finset.sum_range_succ, Finset.sum_range_zero, coeff_derivative,
    gearA, gearB, tbl, List.getD_cons_zero, List.getD_cons_succ] <;> norm_num <;> ring

theorem gearFunc_spec (k : Nat) (f : K → V → V) (t dt : K) (r : Ring V) (x : V) :
    gearFunc k f t dt r x = x + ∑ i ∈ Finset.range k, (gearA k i : K) • r.elem i - ((gearB k : K) * dt) • f (t + dt) x := by
  unfold gearFunc
  have := forUp_inv (fun i y => cat y (gearA k i : K) (r.elem i)) x
    (P := fun j y => y = x + ∑ i ∈ Finset.range j, (gearA k i : K) • r.elem i) (Nat.zero_le k) (by simp)
    (by rintro j y - - rfl; rw [Finset.sum_range_succ]; simp only [cat]; module)
  rw [this]
  simp only [cat]
  module

/-- C54: if the history holds the values of polynomials of degree at most the number of steps at the last equidistant times and the right-hand side
is their derivative, then the equation that the update solves has their values at the new time as its only root. -/
theorem zODEUpdateGear_exact {ι : Type*} (step : Int) (P : ι → K[X]) (hP : ∀ j, (P j).natDegree ≤ gearStep step) (t dt : K) (r : Ring (ι → K))
    (hs : r.size = gearStep step) (x : ι → K) (hx : ∀ j, x j = (P j).eval t)
    (hr : ∀ i, 0 < i → i < gearStep step → ∀ j, r.elem i j = (P j).eval (t - i * dt)) (y : ι → K) :
    gearFunc (gearStep step) (fun t _ j => (P j).derivative.eval t) t dt (gearHist r x) y = 0 ↔ ∀ j, y j = (P j).eval (t + dt) := by
  have h1 : 1 ≤ gearStep step := by unfold gearStep; split_ifs <;> omega
  have h6 : gearStep step ≤ 6 := by unfold gearStep; split_ifs <;> omega
  rw [gearFunc_spec, funext_iff]
  refine forall_congr' fun j => ?_
  have he : ∀ i ∈ Finset.range (gearStep step), (gearA (gearStep step) i : K) * (gearHist r x).elem i j = gearA (gearStep step) i * (P j).eval (t - i * dt) := by
    intro i hi
    rw [Finset.mem_range] at hi
    rw [gearHist, Ring.elem_setHead _ _ _ (by omega)]
    by_cases h0 : i = 0
    · subst h0; rw [if_pos rfl, hx j]; simp
    · rw [if_neg h0, hr i (by omega) hi j]
  simp only [Pi.add_apply, Pi.sub_apply, Pi.smul_apply, Finset.sum_apply, smul_eq_mul, Pi.zero_apply]
  rw [Finset.sum_congr rfl he]
  have := gear_formula _ h1 h6 (P j) (hP j) t dt
  constructor
  · intro h; linear_combination h - this
  · intro h; rw [h]; exact this

/-- C54: the history that the next update sees is the one of this update moved on by one step. -/
theorem zODEUpdateGear_hist (r : Ring V) (hs : 0 < r.size) (x xn : V) (i : Nat) (hi : i + 1 < r.size) :
    let r' := gearHist (zODEUpdateGear r x xn).2 xn
    r'.elem 0 = xn ∧ r'.elem (i+1) = (gearHist r x).elem i := by
  intro r'
  constructor
  · show Ring.elem (Ring.setHead _ _) 0 = _
    rw [Ring.elem_setHead _ _ _ (by simpa [zODEUpdateGear, gearHist] using hs), if_pos rfl]
  · show Ring.elem (Ring.setHead _ _) (i+1) = _
    rw [Ring.elem_setHead _ _ _ (by simpa [zODEUpdateGear, gearHist] using hi), if_neg (by omega)]
    exact Ring.elem_dec _ _ (by simpa [gearHist] using hs)

example : gearStep 9 = 6 ∧ gearStep (-3) = 1 ∧ gearStep 4 = 4 := by decide

/-! ## Implicit Runge-Kutta methods -/

/-- `x'` is the result of a step of the (implicit) Runge-Kutta method with coefficients `A`, `b`, `c`. -/
def IsIRK (s : Nat) (A : Nat → Nat → K) (b c : Nat → K) (f : K → V → V) (t : K) (x : V) (dt : K) (x' : V) : Prop :=
  ∃ k : Nat → V, (∀ i < s, k i = f (t + c i * dt) (x + dt • ∑ j ∈ Finset.range s, A i j • k j)) ∧
    x' = x + dt • ∑ i ∈ Finset.range s, b i • k i

/-- A method given by the relation between the state before and after a step is an implicit Runge-Kutta method of order `p`. -/
def HasIOrder (K V : Type*) [Field K] [AddCommGroup V] [Module K V] (step : (K → V → V) → K → V → K → V → Prop) (p : Nat) : Prop :=
  ∃ (s : Nat) (A : Nat → Nat → K) (b c : Nat → K), OrderCond s A b c p ∧ ∀ f t x dt x', step f t x dt x' → IsIRK s A b c f t x dt x'

theorem HasIOrder.exact {ι : Type*} {step : (K → (ι → K) → (ι → K)) → K → (ι → K) → K → (ι → K) → Prop} {p : Nat} (h : HasIOrder K (ι → K) step p)
    (P : ι → K[X]) (hP : ∀ i, (P i).natDegree ≤ p) (t : K) (x : ι → K) (dt : K) (x' : ι → K)
    (hs : step (fun t _ i => (P i).derivative.eval t) t x dt x') : x' = fun i => x i + ((P i).eval (t + dt) - (P i).eval t) := by
  obtain ⟨s, A, b, c, ho, hr⟩ := h
  obtain ⟨k, hk, hx⟩ := hr _ _ _ _ _ hs
  rw [hx]
  funext i
  rw [← ho.exact (P i) (hP i) t dt]
  simp only [Pi.add_apply, Pi.smul_apply, Finset.sum_apply, smul_eq_mul]
  congr 2
  refine Finset.sum_congr rfl fun j hj => ?_
  rw [hk j (Finset.mem_range.1 hj)]

theorem dt_cases {x x0 d : V} {dt : K} (h : x - x0 + (-dt) • d = 0) : x = x0 + dt • d := by
  have : x = x - x0 + (-dt) • d + (x0 + dt • d) := by module
  rw [this, h, zero_add]

/-- C89: the backward Euler method is of order one. -/
theorem zODEUpdateBEuler_order : HasIOrder K V (fun f t x dt x' => zODEBEulerEq f t x dt x' = 0) 1 := by
  refine ⟨1, lower [[1]], tbl [1], tbl [1], ?_, fun f t x dt x' h => ?_⟩
  · refine Conds.order (d := tbl [1]) (e := tbl [1]) ?_ (by norm_num)
    conds
  · have hx := dt_cases h
    refine ⟨vtbl [f (t + dt) x'], fun i hi => ?_, ?_⟩
    · interval_cases i
      refine (show _ = f (t + dt) x' from rfl).trans (fcongr ?_ ?_)
      · simp [tbl]
      · simpa [lower, vtbl] using hx
    · simpa [tbl, vtbl] using hx

/-- C89: the trapezoidal method is of order two. -/
theorem zODEUpdateTR_order : HasIOrder K V (fun f t x dt x' => zODETREq f t x dt x' = 0) 2 := by
  refine ⟨2, lower [[0, 0], [1/2, 1/2]], tbl [1/2, 1/2], tbl [0, 1], ?_, fun f t x dt x' h => ?_⟩
  · refine Conds.order (d := tbl [0, 1/2]) (e := tbl [0, 1/2]) ?_ (by norm_num)
    conds
  · have hx := dt_cases h
    have hx' : x' = x + dt • ((1/2 : K) • f t x + (1/2 : K) • f (t + dt) x') := by
      refine hx.trans ?_; simp only [cat]; module
    refine ⟨vtbl [f t x, f (t + dt) x'], fun i hi => ?_, ?_⟩
    · interval_cases i
      · refine (show _ = f t x from rfl).trans (fcongr ?_ ?_)
        · simp [tbl]
        · simp [lower, vtbl, Finset.sum_range_succ]
      · refine (show _ = f (t + dt) x' from rfl).trans (fcongr ?_ ?_)
        · simp [tbl]
        · simpa [lower, vtbl, Finset.sum_range_succ] using hx'
    · simpa [tbl, vtbl, Finset.sum_range_succ] using hx'

/-- C89: the Gauss method is of order four. -/
theorem zODEUpdateGauss_order (s3 : K) (hs : s3 ^ 2 = 3) :
    HasIOrder K V (fun f t x dt x' => ∃ k1 k2, zODEGaussEq s3 f t x dt k1 k2 = 0 ∧ x' = zODEGaussEnd x dt k1 k2) 4 := by
  refine ⟨2, lower [[1/4, 1/4 + s3/6], [1/4 - s3/6, 1/4]], tbl [1/2, 1/2], tbl [1/2 + s3/6, 1/2 - s3/6], ?_, ?_⟩
  · refine Conds.order (d := tbl [1/6 + s3/12, 1/6 - s3/12]) (e := tbl [1/12 + s3/18, 1/12 - s3/18]) ?_ (by norm_num)
    constructor
    · intro i hi; interval_cases i <;> simp [Finset.sum_range_succ, lower, tbl] <;> ring
    · intro i hi; interval_cases i <;> simp [Finset.sum_range_succ, lower, tbl] <;> linear_combination (1/36) * hs
    · intro i hi
      interval_cases i <;> simp [Finset.sum_range_succ, lower, tbl]
      · linear_combination (1/72 - s3/216) * hs
      · linear_combination (1/72 + s3/216) * hs
    · simp [Finset.sum_range_succ, tbl]; ring
    · intro _; simp [Finset.sum_range_succ, tbl]; ring
    · intro _; simp [Finset.sum_range_succ, tbl]; linear_combination (1/36) * hs
    · intro _; simp [Finset.sum_range_succ, tbl]; ring
    · intro _; simp [Finset.sum_range_succ, tbl]; linear_combination (1/24) * hs
    · intro _; simp [Finset.sum_range_succ, tbl]; linear_combination (1/72) * hs
    · intro _; simp [Finset.sum_range_succ, tbl]; ring
    · intro _; simp [Finset.sum_range_succ, tbl, lower]; linear_combination (-1/72) * hs
    all_goals (intro h; exfalso; omega)
  · rintro f t x dt x' ⟨k1, k2, h, hx⟩
    rw [Prod.ext_iff] at h
    obtain ⟨h1, h2⟩ := h
    simp only [zODEGaussEq, bk4Func, sub, Prod.fst_zero, Prod.snd_zero, sub_eq_zero] at h1 h2
    refine ⟨vtbl [k1, k2], fun i hi => ?_, ?_⟩
    · interval_cases i
      · refine h1.trans (fcongr ?_ ?_)
        · simp [tbl]
        · simp only [cat, lower, vtbl, Finset.sum_range_succ, Finset.sum_range_zero, List.getD_cons_zero, List.getD_cons_succ]; module
      · refine h2.trans (fcongr ?_ ?_)
        · simp [tbl]
        · simp only [cat, lower, vtbl, Finset.sum_range_succ, Finset.sum_range_zero, List.getD_cons_zero, List.getD_cons_succ]; module
    · rw [hx]
      simp only [zODEGaussEnd, cat, tbl, vtbl, Finset.sum_range_succ, Finset.sum_range_zero, List.getD_cons_zero, List.getD_cons_succ]; module

example : ∃ s : ℝ, s ^ 2 = 3 := ⟨Real.sqrt 3, Real.sq_sqrt (by norm_num)⟩

/-- C89: the Radau method is of order three. -/
theorem zODEUpdateRadau_order :
    HasIOrder K V (fun f t x dt x' => ∃ k1 k2, zODERadauEq f t x dt k1 k2 = 0 ∧ x' = zODERadauEnd x dt k1 k2) 3 := by
  refine ⟨2, lower [[5/12, -1/12], [3/4, 1/4]], tbl [3/4, 1/4], tbl [1/3, 1], ?_, ?_⟩
  · refine Conds.order (d := tbl [1/18, 1/2]) (e := tbl [-1/27, 1/3]) ?_ (by norm_num)
    conds
  · rintro f t x dt x' ⟨k1, k2, h, hx⟩
    rw [Prod.ext_iff] at h
    obtain ⟨h1, h2⟩ := h
    simp only [zODERadauEq, bk4Func, sub, Prod.fst_zero, Prod.snd_zero, sub_eq_zero] at h1 h2
    refine ⟨vtbl [k1, k2], fun i hi => ?_, ?_⟩
    · interval_cases i
      · refine h1.trans (fcongr ?_ ?_)
        · simp only [tbl, List.getD_cons_zero]; ring
        · simp only [cat, lower, vtbl, Finset.sum_range_succ, Finset.sum_range_zero, List.getD_cons_zero, List.getD_cons_succ]; module
      · refine h2.trans (fcongr ?_ ?_)
        · simp only [tbl, List.getD_cons_zero, List.getD_cons_succ]; ring
        · simp only [cat, lower, vtbl, Finset.sum_range_succ, Finset.sum_range_zero, List.getD_cons_zero, List.getD_cons_succ]; module
    · rw [hx]
      simp only [zODERadauEnd, cat, tbl, vtbl, Finset.sum_range_succ, Finset.sum_range_zero, List.getD_cons_zero, List.getD_cons_succ]; module

/-! ## Second-order equations -/

/-- C90: a method of order `p` for equations of first order is one of order `p` for the equivalent system of an equation of second order. -/
theorem zODE2UpdateRegular_order {upd : (K → V × V → V × V) → K → V × V → K → V × V} {p : Nat} (h : HasOrder K (V × V) upd p)
    (f : K → V → V → V) : ∃ (s : Nat) (A : Nat → Nat → K) (b c : Nat → K), OrderCond s A b c p ∧ ∀ t x v dt,
      ∃ kx kv : Nat → V, (∀ i < s, kx i = v + dt • ∑ j ∈ Finset.range i, A i j • kv j) ∧
        (∀ i < s, kv i = f (t + c i * dt) (x + dt • ∑ j ∈ Finset.range i, A i j • kx j) (v + dt • ∑ j ∈ Finset.range i, A i j • kv j)) ∧
        zODE2UpdateRegular upd f t x v dt = (x + dt • ∑ i ∈ Finset.range s, b i • kx i, v + dt • ∑ i ∈ Finset.range s, b i • kv i) := by
  obtain ⟨s, A, b, c, -, ho, hr⟩ := h
  refine ⟨s, A, b, c, ho, fun t x v dt => ?_⟩
  obtain ⟨k, hk, hx⟩ := hr (ode2Func f) t (x, v) dt
  refine ⟨fun i => (k i).1, fun i => (k i).2, fun i hi => ?_, fun i hi => ?_, ?_⟩
  · show (k i).1 = _
    rw [hk i hi]; simp [ode2Func, Prod.snd_sum]
  · show (k i).2 = _
    rw [hk i hi]; simp [ode2Func, Prod.fst_sum, Prod.snd_sum]
  · unfold zODE2UpdateRegular
    rw [hx]; simp [Prod.ext_iff, Prod.fst_sum, Prod.snd_sum]

/-- The state after `n` steps of the symplectic method for `x'' = -w x`. -/
def oscillate (w dt : K) : Nat → K × K → K × K
  | 0, y => y
  | n+1, y => oscillate w dt n (zODE2UpdateSymplectic (fun _ x _ => -w * x) 0 y.1 y.2 dt)

/-- C90: the symplectic method conserves, over any number of steps, a quadratic invariant of the oscillator, so the energy stays bounded. -/
theorem zODE2UpdateSymplectic_invariant (w dt : K) (n : Nat) (x v : K) :
    let y := oscillate w dt n (x, v)
    y.2 ^ 2 + w * y.1 ^ 2 - w * dt * y.1 * y.2 = v ^ 2 + w * x ^ 2 - w * dt * x * v := by
  induction n generalizing x v with
  | zero => rfl
  | succ n ih =>
    have := ih (zODE2UpdateSymplectic (fun _ x _ => -w * x) 0 x v dt).1 (zODE2UpdateSymplectic (fun _ x _ => -w * x) 0 x v dt).2
    dsimp only at this ⊢
    rw [oscillate]
    refine this.trans ?_
    simp only [zODE2UpdateSymplectic, cat, smul_eq_mul]
    ring

/-- The part of C90 that holds for the leapfrog method: with the velocity of half a step before, constant acceleration is integrated exactly. -/
theorem zODE2UpdateLeapfrog_constant_partial (t dt : K) (x v a : V) :
    zODE2UpdateLeapfrog (fun _ _ _ => a) t x v (v - (dt/2) • a) dt =
      (x + dt • v + (dt ^ 2 / 2) • a, v + dt • a, (v + dt • a) - (dt/2) • a) := by
  simp only [zODE2UpdateLeapfrog, cat, Prod.mk.injEq]
  refine ⟨?_, ?_, ?_⟩ <;> module

/-- C90 is violated by the leapfrog method as it is initialised (`zODE2InitHistoryLeapfrog` takes the initial velocity for the one of half a step
before): constant acceleration is not integrated exactly, neither the displacement nor the velocity. -/
theorem zODE2UpdateLeapfrog_start_violated : zODE2UpdateLeapfrog (fun _ _ _ => (1 : ℚ)) (0 : ℚ) 0 0 0 1 = (1, 3/2, 1) ∧
    ((1 : ℚ), (3/2 : ℚ)) ≠ (1/2, 1) := by
  norm_num [zODE2UpdateLeapfrog, cat]

end

/-! ## Numerical integrators -/

section
variable {K : Type*} [Field K] [LinearOrder K] [IsStrictOrderedRing K]

/-- The samples of a function after each of the given steps. -/
def samples (p : K → K) : K → List K → List (K × K)
  | _, [] => []
  | t, dt :: l => (p (t + dt), dt) :: samples p (t + dt) l

/-- The rectangular sum of samples. -/
def rectSum : K → List (K × K) → K
  | _, [] => 0
  | x0, (x, dt) :: l => x0 * dt + rectSum x l

/-- The trapezoidal sum of samples. -/
def trSum : K → List (K × K) → K
  | _, [] => 0
  | x0, (x, dt) :: l => (x0 + x) / 2 * dt + trSum x l

/-- C55: the rectangular integrator returns the rectangular sum of every history. -/
theorem zIntgRect_spec (s0 x0 : K) (l : List (K × K)) : (l.foldl (fun g y => zIntgRect g y.1 y.2) (zIntgInit s0 x0)).s = s0 + rectSum x0 l := by
  have : ∀ (g : Intg K), (l.foldl (fun g y => zIntgRect g y.1 y.2) g).s = g.s + rectSum g.x0 l := by
    induction l with
    | nil => intro g; simp [rectSum]
    | cons y l ih => intro g; rw [List.foldl_cons, ih]; simp only [zIntgRect, rectSum]; ring
  exact this _

/-- C55: the trapezoidal integrator returns the trapezoidal sum of every history. -/
theorem zIntgTR_spec (s0 x0 : K) (l : List (K × K)) : (l.foldl (fun g y => zIntgTR g y.1 y.2) (zIntgInit s0 x0)).s = s0 + trSum x0 l := by
  have : ∀ (g : Intg K), (l.foldl (fun g y => zIntgTR g y.1 y.2) g).s = g.s + trSum g.x0 l := by
    induction l with
    | nil => intro g; simp [trSum]
    | cons y l ih => intro g; rw [List.foldl_cons, ih]; simp only [zIntgTR, trSum]; ring
  exact this _

/-- C55: the trapezoidal rule is exact for affine integrands, for every sequence of steps. -/
theorem trSum_affine (P : K[X]) (hP : P.natDegree ≤ 2) (t : K) (l : List K) :
    trSum (P.derivative.eval t) (samples (fun t => P.derivative.eval t) t l) = P.eval (t + l.sum) - P.eval t := by
  induction l generalizing t with
  | nil => simp [trSum, samples]
  | cons dt l ih =>
    rw [samples, trSum, ih, List.sum_cons, ← add_assoc]
    have hd : P.derivative.natDegree < 2 := by have := natDegree_derivative_le P; omega
    have e : (P.derivative.eval t + P.derivative.eval (t + dt)) / 2 * dt = P.eval (t + dt) - P.eval t := by
      simp only [eval_eq_sum_range' (Nat.lt_succ_of_le hP), eval_eq_sum_range' hd, Finset.sum_range_succ, Finset.sum_range_zero, coeff_derivative]
      push_cast
      ring
    rw [e]; ring

/-- Integration of a history by the quadratic integrator. -/
def quadRun : Intg K → List (K × K) → Res (Intg K)
  | g, [] => .ok g
  | g, y :: l => (zIntgQuad g y.1 y.2).bind fun g => quadRun g l

theorem quadRun_exact (P : K[X]) (hP : P.natDegree ≤ 3) (t : K) (l : List K) (hl : ∀ dt ∈ l, 0 < dt) (g : Intg K) (hdt : 0 < g.dt)
    (hx0 : g.x0 = P.derivative.eval t) (hx : g.x = P.derivative.eval (t - g.dt)) :
    ∃ g', quadRun g (samples (fun t => P.derivative.eval t) t l) = .ok g' ∧ g'.s = g.s + (P.eval (t + l.sum) - P.eval t) := by
  induction l generalizing t g with
  | nil => exact ⟨g, rfl, by simp⟩
  | cons dt l ih =>
    have hpos : 0 < dt := hl dt (by simp)
    rw [samples, quadRun]
    have e : zIntgQuad g (P.derivative.eval (t + dt)) dt = .ok
        { s := g.s + (P.eval (t + dt) - P.eval t), x := g.x0, dt := dt, x0 := P.derivative.eval (t + dt) } := by
      unfold zIntgQuad
      rw [if_neg hdt.ne']
      dsimp only
      rw [if_neg (by linarith : dt + g.dt ≠ 0)]
      have hd : P.derivative.natDegree < 3 := by have := natDegree_derivative_le P; omega
      congr 2
      congr 1
      rw [hx0, hx]
      have h1 : g.dt ≠ 0 := hdt.ne'
      have h2 : dt + g.dt ≠ 0 := by linarith
      generalize g.dt = h at h1 h2
      simp only [eval_eq_sum_range' (Nat.lt_succ_of_le hP), eval_eq_sum_range' hd, Finset.sum_range_succ, Finset.sum_range_zero, coeff_derivative]
      push_cast
      field_simp
      ring
    dsimp only
    rw [e]
    obtain ⟨g', h1, h2⟩ := ih (t + dt) (fun d hd => hl d (by simp [hd]))
      { s := g.s + (P.eval (t + dt) - P.eval t), x := g.x0, dt := dt, x0 := P.derivative.eval (t + dt) } hpos rfl (by
        show g.x0 = _
        rw [hx0]; congr 1; ring)
    refine ⟨g', h1, ?_⟩
    rw [h2, List.sum_cons, ← add_assoc]
    ring

/-- The part of C55 that holds for the quadratic integrator: from the second step on it is exact for quadratic integrands and for every
sequence of steps; the first step is made by the trapezoidal rule. -/
theorem zIntgQuad_exact_partial (P : K[X]) (hP : P.natDegree ≤ 3) (s0 t dt : K) (l : List K) (hdt : 0 < dt) (hl : ∀ d ∈ l, 0 < d) :
    ∃ g', quadRun (zIntgInit s0 (P.derivative.eval t)) (samples (fun t => P.derivative.eval t) t (dt :: l)) = .ok g' ∧
      g'.s = s0 + (P.derivative.eval t + P.derivative.eval (t + dt)) / 2 * dt + (P.eval (t + dt + l.sum) - P.eval (t + dt)) := by
  rw [samples, quadRun]
  have e : zIntgQuad (zIntgInit s0 (P.derivative.eval t)) (P.derivative.eval (t + dt)) dt = .ok
      { s := s0 + (1/2) * (P.derivative.eval t + P.derivative.eval (t + dt)) * dt, x := P.derivative.eval t, dt := dt, x0 := P.derivative.eval (t + dt) } := by
    simp [zIntgQuad, zIntgInit, zIntgTR]
  dsimp only
  rw [e]
  obtain ⟨g', h1, h2⟩ := quadRun_exact P hP (t + dt) l hl
    { s := s0 + (1/2) * (P.derivative.eval t + P.derivative.eval (t + dt)) * dt, x := P.derivative.eval t, dt := dt, x0 := P.derivative.eval (t + dt) }
    hdt rfl (by show P.derivative.eval t = _; congr 1; ring)
  refine ⟨g', h1, ?_⟩
  rw [h2]; ring

/-- C55: so affine integrands are integrated exactly from the beginning. -/
theorem zIntgQuad_affine (P : K[X]) (hP : P.natDegree ≤ 2) (s0 t dt : K) (l : List K) (hdt : 0 < dt) (hl : ∀ d ∈ l, 0 < d) :
    ∃ g', quadRun (zIntgInit s0 (P.derivative.eval t)) (samples (fun t => P.derivative.eval t) t (dt :: l)) = .ok g' ∧
      g'.s = s0 + (P.eval (t + dt + l.sum) - P.eval t) := by
  obtain ⟨g', h1, h2⟩ := zIntgQuad_exact_partial P (by omega) s0 t dt l hdt hl
  refine ⟨g', h1, ?_⟩
  have h := trSum_affine P hP t [dt]
  simp only [samples, trSum, List.sum_cons, List.sum_nil, add_zero] at h
  rw [h2, h]; ring

/-- C55 is violated for the first step of the quadratic integrator: the integral of `3 t^2` from 0 to 1 comes out as 3/2. -/
theorem zIntgQuad_first_violated : ∃ g, zIntgQuad (zIntgInit 0 (0 : ℚ)) 3 1 = .ok g ∧ g.s = 3/2 := by
  refine ⟨_, by simp [zIntgQuad, zIntgInit]; rfl, by norm_num [zIntgTR]⟩

example : ∀ d ∈ ([1/2, 1/3, 2] : List ℚ), 0 < d := by norm_num

end
end Zm.ODE
