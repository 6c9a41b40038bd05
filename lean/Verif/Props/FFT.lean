import Verif.Model.FFT
import Mathlib.Analysis.SpecialFunctions.Complex.Log
import Mathlib.Algebra.BigOperators.Field
import Mathlib.Algebra.Field.GeomSum
import Mathlib.Tactic.Ring
import Mathlib.Tactic.FieldSimp
import Mathlib.Tactic.Push

/-! # C27, C28: the mixed-radix FFT computes the discrete Fourier transform and is inverted by the inverse FFT

Specification: `dft n θ x k = Σ_{m<n} x_m exp(i θ k m)`, with `θ = ± 2π/n`. -/

set_option linter.unusedSectionVars false

namespace Zm.FFT
open Zm Finset

/-- Discrete Fourier sum with unit angle `θ`. -/
noncomputable def dft (n : Nat) (θ : ℝ) (x : Nat → ℂ) (k : Nat) : ℂ :=
  ∑ m ∈ range n, x m * Complex.exp (Complex.I * (θ * k * m))

theorem cmul_eq (a b : ℂ) : cmul a b = a * b := by
  apply Complex.ext <;> simp [cmul, Complex.mul_re, Complex.mul_im]

theorem cis_eq (t : ℝ) : cis t = Complex.exp (Complex.I * t) := by
  rw [mul_comm, Complex.exp_mul_I]
  apply Complex.ext
  · simp [cis, Complex.cos_ofReal_re, Complex.sin_ofReal_im]
  · simp [cis, Complex.sin_ofReal_re, Complex.cos_ofReal_im]

/-! ## Radix -/

theorem radixGo_ge (n : Nat) : ∀ fuel r, r ≤ radixGo n fuel r := by
  intro fuel
  induction fuel with
  | zero => intro r; exact le_refl _
  | succ f ih =>
    intro r
    unfold radixGo
    split
    · split
      · exact le_refl _
      · exact le_trans (Nat.le_succ r) (ih (r+1))
    · exact le_refl _

theorem radix_spec (n : Nat) (hn : 2 ≤ n) : 2 ≤ radix n ∧ radix n ∣ n := by
  unfold radix
  simp only
  split
  · exact ⟨hn, dvd_refl n⟩
  · rename_i h
    exact ⟨radixGo_ge n n 2, Nat.dvd_of_mod_eq_zero (by simpa using h)⟩

/-! ## Loops -/

theorem forStep_exact {σ : Type*} (q0 r nr : Nat) (hnr : 0 < nr) (hr : q0 ≤ r) (f : Nat → σ → σ) (s : σ) :
    forStep (q0 * nr) (r * nr) nr f s = forUp 0 (r - q0) (fun q => f ((q0 + q) * nr)) s := by
  unfold forStep
  have h1 : r * nr - q0 * nr = (r - q0) * nr := by rw [Nat.sub_mul]
  have h2 : ((r - q0) * nr + nr - 1) / nr = r - q0 := by
    rw [show (r - q0) * nr + nr - 1 = (nr - 1) + (r - q0) * nr by omega, Nat.add_mul_div_right _ _ hnr,
      Nat.div_eq_of_lt (by omega), Nat.zero_add]
  rw [h1, h2]
  congr 1
  funext q
  rw [Nat.add_mul]

theorem loop2 {α : Type*} (N M : Nat) (f : Nat → Nat → Nat) (G : Nat → Nat → α) (B : Nat → α)
    (hinj : ∀ i j i' j', i < N → j < M → i' < N → j' < M → f i j = f i' j' → i = i' ∧ j = j') :
    (∀ i j, i < N → j < M → forUp 0 N (fun i B => forUp 0 M (fun j B => set1 B (f i j) (G i j)) B) B (f i j) = G i j) ∧
    ∀ x, (∀ i j, i < N → j < M → x ≠ f i j) →
      forUp 0 N (fun i B => forUp 0 M (fun j B => set1 B (f i j) (G i j)) B) B x = B x := by
  have inner : ∀ i, i < N → ∀ t : Nat → α,
      (∀ j, j < M → forUp 0 M (fun j B => set1 B (f i j) (G i j)) t (f i j) = G i j) ∧
      ∀ x, (∀ j, j < M → x ≠ f i j) → forUp 0 M (fun j B => set1 B (f i j) (G i j)) t x = t x := by
    intro i hi t
    exact forUp_inv (lo := 0) (hi := M) (fun j (B : Nat → α) => set1 B (f i j) (G i j)) t
      (fun k t' => (∀ j, j < k → t' (f i j) = G i j) ∧ ∀ x, (∀ j, j < k → x ≠ f i j) → t' x = t x) (Nat.zero_le _)
      ⟨by intro j hj; omega, by intros; rfl⟩
      (by
        rintro k t' - hk ⟨h1, h2⟩
        refine ⟨fun j hj => ?_, fun x hx => ?_⟩
        · by_cases hjk : j = k
          · subst hjk; rw [set1_same]
          · rw [set1_ne _ _ (fun e => hjk (hinj i j i k hi (by omega) hi hk e).2)]; exact h1 j (by omega)
        · rw [set1_ne _ _ (hx k (by omega))]; exact h2 x fun j hj => hx j (by omega))
  have := forUp_inv (lo := 0) (hi := N) (fun i (B : Nat → α) => forUp 0 M (fun j B => set1 B (f i j) (G i j)) B) B
    (fun k t => (∀ i j, i < k → j < M → t (f i j) = G i j) ∧ ∀ x, (∀ i j, i < k → j < M → x ≠ f i j) → t x = B x) (Nat.zero_le _)
    ⟨by intro i j hi; omega, by intros; rfl⟩
    (by
      rintro k t - hk ⟨h1, h2⟩
      obtain ⟨g1, g2⟩ := inner k hk t
      refine ⟨fun i j hi hj => ?_, fun x hx => ?_⟩
      · by_cases hik : i = k
        · subst hik; exact g1 j hj
        · rw [g2 _ (fun j' hj' e => hik (hinj i j k j' (by omega) hj hk hj' e).1)]
          exact h1 i j (by omega) hj
      · rw [g2 x (fun j hj => hx k j (by omega) hj)]
        exact h2 x fun i j hi hj => hx i j (by omega) hj)
  exact this

/-- Positions `q*j + i` with `i < q` determine `i` and `j`. -/
theorem pos_inj {q i j i' j' : Nat} (hi : i < q) (hi' : i' < q) (h : q * j + i = q * j' + i') : i = i' ∧ j = j' := by
  have h1 := congrArg (· % q) h
  have h2 := congrArg (· / q) h
  simp only [Nat.mul_add_mod, Nat.mod_eq_of_lt hi, Nat.mod_eq_of_lt hi'] at h1
  have hq : 0 < q := by omega
  simp only [Nat.mul_add_div hq, Nat.div_eq_of_lt hi, Nat.div_eq_of_lt hi', Nat.add_zero] at h2
  exact ⟨h1, h2⟩

theorem pos_lt {q r i j : Nat} (hi : i < q) (hj : j < r) : q * j + i < q * r := by
  calc q * j + i < q * j + q := by omega
    _ = q * (j + 1) := by ring
    _ ≤ q * r := Nat.mul_le_mul_left _ hj

/-! ## The butterflies -/

theorem butterfly_spec (nr r : Nat) (hnr : 0 < nr) (hr : 0 < r) (θ : ℝ) (oa ob : Nat) (A B : Nat → ℂ) :
    (∀ i j, i < nr → j < r → butterfly (r * nr) nr r θ oa ob A B (ob + (nr * j + i)) =
      (∑ q ∈ range r, A (oa + (q * nr + i)) * Complex.exp (Complex.I * (θ * j * (q * nr : Nat)))) * Complex.exp (Complex.I * (θ * j * i))) ∧
    ∀ x, (x < ob ∨ ob + r * nr ≤ x) → butterfly (r * nr) nr r θ oa ob A B x = B x := by
  obtain ⟨h1, h2⟩ := loop2 nr r (fun i j => ob + (nr * j + i)) (fun i j =>
      cmul (forStep nr (r * nr) nr (fun k x => x + cmul (cis (θ * j * k)) (A (oa + (k + i)))) (A (oa + i))) (cis (θ * j * i))) B
    (by
      intro i j i' j' hi _ hi' _ e
      exact pos_inj hi hi' (by simpa using e))
  refine ⟨fun i j hi hj => ?_, fun x hx => ?_⟩
  · refine (h1 i j hi hj).trans ?_
    rw [cmul_eq, cis_eq]
    have e1 := forStep_exact 1 r nr hnr hr (fun k x => x + cmul (cis (θ * j * k)) (A (oa + (k + i)))) (A (oa + i))
    rw [one_mul] at e1
    rw [e1]
    have e2 : forUp 0 (r - 1) (fun q x => x + cmul (cis (θ * j * ((1 + q) * nr : Nat))) (A (oa + ((1 + q) * nr + i)))) (A (oa + i)) =
        ∑ q ∈ range r, A (oa + (q * nr + i)) * Complex.exp (Complex.I * (θ * j * (q * nr : Nat))) := by
      have := forUp_inv (lo := 0) (hi := r - 1) (fun q x => x + cmul (cis (θ * j * ((1 + q) * nr : Nat))) (A (oa + ((1 + q) * nr + i)))) (A (oa + i))
        (fun k x => x = ∑ q ∈ range (k+1), A (oa + (q * nr + i)) * Complex.exp (Complex.I * (θ * j * (q * nr : Nat)))) (Nat.zero_le _)
        (by simp)
        (by
          intro k x _ _ h
          rw [h, sum_range_succ _ (k+1), cmul_eq, cis_eq, mul_comm (Complex.exp _), add_comm 1 k]
          push_cast
          rfl)
      rw [show r - 1 + 1 = r by omega] at this
      exact this
    rw [e2]
    push_cast
    rfl
  · refine h2 x fun i j hi hj e => ?_
    have := pos_lt hi hj
    rw [mul_comm nr r] at this
    omega

/-! ## Main theorem about the recursion -/

theorem exp_add_cycle (θ : ℝ) (n : Nat) (hθ : Complex.exp (Complex.I * (θ * n)) = 1) (a : ℂ) (k : Nat) :
    Complex.exp (Complex.I * (a + θ * n * k)) = Complex.exp (Complex.I * a) := by
  rw [mul_add, Complex.exp_add]
  have : Complex.exp (Complex.I * (θ * n * k)) = 1 := by
    rw [show Complex.I * (θ * n * k) = (k : ℂ) * (Complex.I * (θ * n)) by ring, Complex.exp_nat_mul, hθ, one_pow]
  rw [this, mul_one]

/-- `_zFFTInner` replaces `data` by its discrete Fourier transform, and apart from `data` it writes only to the `n` cells of the
work space. -/
theorem inner_spec : ∀ (fuel n : Nat) (θ : ℝ) (oa ob : Nat) (A B : Nat → ℂ), n ≤ fuel →
    Complex.exp (Complex.I * (θ * n)) = 1 →
    (∀ k, k < n → (inner fuel n θ oa ob (A, B)).1 (oa + k) = dft n θ (fun m => A (oa + m)) k) ∧
    (∀ x, (x < oa ∨ oa + n ≤ x) → (inner fuel n θ oa ob (A, B)).1 x = A x) ∧
    (∀ x, (x < ob ∨ ob + n ≤ x) → (inner fuel n θ oa ob (A, B)).2 x = B x) := by
  intro fuel
  induction fuel with
  | zero =>
    intro n θ oa ob A B hn hθ
    exact ⟨fun k hk => by omega, fun _ _ => rfl, fun _ _ => rfl⟩
  | succ fuel ih =>
    intro n θ oa ob A B hn hθ
    unfold inner
    by_cases h1 : n ≤ 1
    · rw [if_pos h1]
      refine ⟨fun k hk => ?_, fun _ _ => rfl, fun _ _ => rfl⟩
      have hk0 : k = 0 := by omega
      have hn1 : n = 1 := by omega
      subst hk0 hn1
      simp [dft]
    · rw [if_neg h1]
      obtain ⟨hr2, nr, hnr⟩ := radix_spec n (by omega)
      simp only
      generalize radix n = r at hr2 hnr
      have hnr0 : 0 < nr := by
        by_contra h
        have : nr = 0 := by omega
        rw [this] at hnr; omega
      have hdiv : n / r = nr := by rw [hnr]; exact Nat.mul_div_cancel_left nr (by omega)
      rw [hdiv]
      have hlt : nr < n := by
        rw [hnr]
        calc nr < 2 * nr := by omega
          _ ≤ r * nr := Nat.mul_le_mul_right nr hr2
      rw [hnr] at hθ ⊢
      obtain ⟨b1, b2⟩ := butterfly_spec nr r hnr0 (by omega) θ oa ob A B
      generalize butterfly (r * nr) nr r θ oa ob A B = B1 at b1 b2
      -- recursive calls
      have hstep := forStep_exact 0 r nr hnr0 (Nat.zero_le _) (fun i s => inner fuel nr (θ * r) (ob + i) oa s) (B1, A)
      rw [Nat.zero_mul, Nat.sub_zero] at hstep
      simp only [Nat.zero_add] at hstep
      rw [hstep]
      have hθ' : Complex.exp (Complex.I * (((θ * r : ℝ) : ℂ) * nr)) = 1 := by
        rw [← hθ]; push_cast; ring_nf
      have hrec := forUp_inv (lo := 0) (hi := r) (fun q s => inner fuel nr (θ * r) (ob + q * nr) oa s) (B1, A)
        (fun k s => (∀ j m, j < k → m < nr → s.1 (ob + (nr * j + m)) = dft nr (θ * r) (fun i => B1 (ob + (nr * j + i))) m) ∧
          (∀ x, (x < ob ∨ ob + nr * k ≤ x) → s.1 x = B1 x) ∧ (∀ x, (x < oa ∨ oa + nr ≤ x) → s.2 x = A x))
        (Nat.zero_le _) ⟨by intro j m hj; omega, by intros; rfl, by intros; rfl⟩
        (by
          rintro k ⟨B2, A2⟩ - hk ⟨g1, g2, g3⟩
          simp only at g1 g2 g3
          obtain ⟨i1, i2, i3⟩ := ih nr (θ * r) (ob + k * nr) oa B2 A2 (by omega) hθ'
          refine ⟨fun j m hj hm => ?_, fun x hx => ?_, fun x hx => ?_⟩
          · by_cases hjk : j = k
            · subst hjk
              rw [show ob + (nr * j + m) = ob + j * nr + m by ring, i1 m hm]
              unfold dft
              refine sum_congr rfl fun i hi => ?_
              rw [mem_range] at hi
              beta_reduce
              have hx : ob + j * nr + i = ob + (nr * j + i) := by ring
              rw [hx, g2 (ob + (nr * j + i)) (by right; omega)]
            · rw [i2, g1 j m (by omega) hm]
              left
              have : nr * j + m < nr * k := pos_lt hm (by omega)
              rw [mul_comm k nr]; omega
          · have e : nr * (k + 1) = nr * k + nr := by ring
            rw [i2 x (by rw [mul_comm k nr]; omega)]
            exact g2 x (by omega)
          · rw [i3 x hx]; exact g3 x hx)
      generalize forUp 0 r (fun q s => inner fuel nr (θ * r) (ob + q * nr) oa s) (B1, A) = s2 at hrec
      obtain ⟨B2, A2⟩ := s2
      obtain ⟨g1, g2, g3⟩ := hrec
      simp only at g1 g2 g3 ⊢
      -- rearrangement
      obtain ⟨l1, l2⟩ := loop2 nr r (fun i j => oa + (r * i + j)) (fun i j => B2 (ob + (nr * j + i))) A2
        (by
          intro i j i' j' _ hj _ hj' e
          obtain ⟨a, b⟩ := pos_inj hj hj' (show r * i + j = r * i' + j' by simpa using e)
          exact ⟨b, a⟩)
      refine ⟨fun k hk => ?_, fun x hx => ?_, fun x hx => ?_⟩
      · -- k = r * m + j
        have hr0 : 0 < r := by omega
        obtain ⟨m, j, hm, hj, rfl⟩ : ∃ m j, m < nr ∧ j < r ∧ k = r * m + j :=
          ⟨k / r, k % r, Nat.div_lt_of_lt_mul hk, Nat.mod_lt _ hr0, (Nat.div_add_mod k r).symm⟩
        rw [l1 m j hm hj, g1 j m hj hm]
        unfold dft
        -- rearrange the double sum
        have hdbl : ∀ F : Nat → ℂ, ∑ m ∈ range (r * nr), F m = ∑ i ∈ range nr, ∑ q ∈ range r, F (q * nr + i) := by
          intro F
          have : ∀ t, ∑ m ∈ range (t * nr), F m = ∑ q ∈ range t, ∑ i ∈ range nr, F (q * nr + i) := by
            intro t
            induction t with
            | zero => simp
            | succ t iht =>
              rw [Nat.add_mul, Nat.one_mul, sum_range_add, iht, sum_range_succ]
          rw [this, sum_comm]
        rw [hdbl]
        refine sum_congr rfl fun i hi => ?_
        rw [mem_range] at hi
        beta_reduce
        rw [b1 i j hi hj, sum_mul, sum_mul]
        refine sum_congr rfl fun q _ => ?_
        rw [mul_assoc, mul_assoc, ← Complex.exp_add, ← Complex.exp_add]
        congr 1
        have hcyc := exp_add_cycle θ (r * nr) hθ (θ * j * (q * nr) + θ * j * i + θ * r * m * i) (m * q)
        push_cast at hcyc ⊢
        have e1 : Complex.I * (↑θ * ↑j * (↑q * ↑nr)) + (Complex.I * (↑θ * ↑j * ↑i) + Complex.I * (↑θ * ↑r * ↑m * ↑i)) =
            Complex.I * (↑θ * ↑j * (↑q * ↑nr) + ↑θ * ↑j * ↑i + ↑θ * ↑r * ↑m * ↑i) := by ring
        rw [e1, ← hcyc]
        congr 1
        ring
      · rw [l2 x (by
          intro i j hi hj e
          have := pos_lt hj hi
          omega)]
        refine g3 x ?_
        rcases hx with h | h
        · exact Or.inl h
        · right
          have : nr ≤ r * nr := Nat.le_mul_of_pos_left nr (by omega)
          omega
      · rw [g2 x (by rw [mul_comm nr r]; exact hx), b2 x hx]

theorem exp_two_pi (n : Nat) (hn : 0 < n) : Complex.exp (Complex.I * (((2 * Real.pi / n : ℝ) : ℂ) * n)) = 1 := by
  have : (n : ℂ) ≠ 0 := Nat.cast_ne_zero.2 (by omega)
  rw [show Complex.I * (((2 * Real.pi / n : ℝ) : ℂ) * n) = 2 * Real.pi * Complex.I by push_cast; field_simp]
  exact Complex.exp_two_pi_mul_I

theorem exp_neg_two_pi (n : Nat) (hn : 0 < n) : Complex.exp (Complex.I * (((- (2 * Real.pi) / n : ℝ) : ℂ) * n)) = 1 := by
  have : (n : ℂ) ≠ 0 := Nat.cast_ne_zero.2 (by omega)
  rw [show Complex.I * (((- (2 * Real.pi) / n : ℝ) : ℂ) * n) = - (2 * Real.pi * Complex.I) by push_cast; field_simp]
  rw [Complex.exp_neg, Complex.exp_two_pi_mul_I, inv_one]

theorem inner_fwd (n : Nat) (hn : 0 < n) (A B : Nat → ℂ) (k : Nat) (hk : k < n) :
    (inner n n (2 * Real.pi / n) 0 0 (A, B)).1 k = dft n (2 * Real.pi / n) A k := by
  have := (inner_spec n n (2 * Real.pi / n) 0 0 A B (le_refl _) (exp_two_pi n hn)).1 k hk
  simpa using this

theorem inner_bwd (n : Nat) (hn : 0 < n) (A B : Nat → ℂ) (k : Nat) (hk : k < n) :
    (inner n n (- (2 * Real.pi) / n) 0 0 (A, B)).1 k = dft n (- (2 * Real.pi) / n) A k := by
  have := (inner_spec n n (- (2 * Real.pi) / n) 0 0 A B (le_refl _) (exp_neg_two_pi n hn)).1 k hk
  simpa using this

/-- Amplitude factor of the library: `1/n` for the constant component, `2/n` for the others. -/
noncomputable def amp (n k : Nat) : ℂ := if k = 0 then 1 / n else 2 / n

theorem scale_eq (z : ℂ) (s : ℝ) : (⟨z.re * s, z.im * s⟩ : ℂ) = z * s := by
  apply Complex.ext <;> simp

/-- **C27** For every length `n ≥ 1` (not only powers of two), all data and any contents of the work space, `zFFT` succeeds and
`result[k] = a_k Σ_m data[m] e^{2πi k m / n}` with `a_0 = 1/n` and `a_k = 2/n` otherwise. -/
theorem zFFT_correct (n : Nat) (hn : 0 < n) (data : Nat → ℝ) (buf : Nat → ℂ) :
    ∃ res, zFFT n n data buf = .ok res ∧ ∀ k, k < n →
      res k = amp n k * ∑ m ∈ range n, (data m : ℂ) * Complex.exp (2 * Real.pi * Complex.I * k * m / n) := by
  unfold zFFT
  rw [if_neg (by simp)]
  refine ⟨_, rfl, fun k hk => ?_⟩
  have hs : dft n (2 * Real.pi / n) (fun i => (⟨data i, 0⟩ : ℂ)) k =
      ∑ m ∈ range n, (data m : ℂ) * Complex.exp (2 * Real.pi * Complex.I * k * m / n) := by
    unfold dft
    refine sum_congr rfl fun m _ => ?_
    congr 1
    push_cast
    congr 1
    ring
  rw [scale_eq]
  by_cases h0 : k = 0
  · subst h0
    rw [set1_same, scale_eq, inner_fwd n hn _ _ 0 hn, hs]
    unfold amp
    rw [if_pos rfl]
    push_cast
    ring
  · rw [set1_ne _ _ h0, inner_fwd n hn _ _ k hk, hs]
    unfold amp
    rw [if_neg h0]
    push_cast
    ring

theorem zFFT_mismatch (n n' : Nat) (h : n ≠ n') (data : Nat → ℝ) (cdata buf : Nat → ℂ) :
    zFFT n n' data buf = .fail ∧ zFFTInv n n' cdata buf = .fail := by
  unfold zFFT zFFTInv; rw [if_pos h, if_pos h]; exact ⟨rfl, rfl⟩

/-- What `zFFTInv` computes for an arbitrary spectrum. -/
theorem zFFTInv_correct (n : Nat) (hn : 0 < n) (data : Nat → ℂ) (buf : Nat → ℂ) :
    ∃ res, zFFTInv n n data buf = .ok res ∧ ∀ m, m < n →
      res m = (∑ k ∈ range n, (if k = 0 then data k else data k / 2) * Complex.exp (- (2 * Real.pi * Complex.I * k * m / n))).re := by
  unfold zFFTInv
  rw [if_neg (by simp)]
  refine ⟨_, rfl, fun m hm => ?_⟩
  rw [inner_bwd n hn _ _ m hm]
  congr 1
  unfold dft
  refine sum_congr rfl fun k _ => ?_
  congr 1
  · by_cases h0 : k = 0
    · subst h0
      rw [if_pos rfl, set1_same]; beta_reduce; rw [scale_eq, scale_eq]; push_cast; ring
    · rw [if_neg h0, set1_ne _ _ h0]; beta_reduce; rw [scale_eq]; push_cast; ring
  · push_cast
    congr 1
    ring

/-! ## Orthogonality -/

theorem exp_ne_one (n a b : Nat) (ha : a < n) (hb : b < n) (hab : a ≠ b) :
    Complex.exp (2 * Real.pi * Complex.I * ((a : ℂ) - b) / n) ≠ 1 := by
  intro h
  rw [Complex.exp_eq_one_iff] at h
  obtain ⟨z, hz⟩ := h
  have hn : (n : ℂ) ≠ 0 := Nat.cast_ne_zero.2 (by omega)
  have hpi : (2 * Real.pi * Complex.I : ℂ) ≠ 0 := Complex.two_pi_I_ne_zero
  have h2 : ((a : ℂ) - b) = z * n := by
    rw [div_eq_iff hn] at hz
    have : (2 * Real.pi * Complex.I : ℂ) * ((a : ℂ) - b) = (2 * Real.pi * Complex.I) * (z * n) := by rw [hz]; ring
    exact mul_left_cancel₀ hpi this
  have h3 : (a : ℤ) - b = z * n := by exact_mod_cast h2
  have hlt : |(a : ℤ) - b| < n := by rw [abs_lt]; omega
  rw [h3, abs_mul] at hlt
  have hz0 : z = 0 := by
    by_contra hz0
    have : 1 ≤ |z| := Int.one_le_abs hz0
    have hn' : |(n : ℤ)| = n := abs_of_nonneg (by omega)
    rw [hn'] at hlt
    nlinarith
  rw [hz0, zero_mul] at h3
  exact hab (by omega)

theorem orthogonality (n a b : Nat) (ha : a < n) (hb : b < n) :
    ∑ k ∈ range n, Complex.exp (2 * Real.pi * Complex.I * k * a / n) * Complex.exp (- (2 * Real.pi * Complex.I * k * b / n)) =
      if a = b then (n : ℂ) else 0 := by
  have hn : (n : ℂ) ≠ 0 := Nat.cast_ne_zero.2 (by omega)
  have e : ∀ k : Nat, Complex.exp (2 * Real.pi * Complex.I * k * a / n) * Complex.exp (- (2 * Real.pi * Complex.I * k * b / n)) =
      Complex.exp (2 * Real.pi * Complex.I * ((a : ℂ) - b) / n) ^ k := by
    intro k
    rw [← Complex.exp_add, ← Complex.exp_nat_mul]
    congr 1; ring
  rw [sum_congr rfl fun k _ => e k]
  by_cases hab : a = b
  · subst hab; rw [if_pos rfl]; simp
  · rw [if_neg hab, geom_sum_eq (exp_ne_one n a b ha hb hab), ← Complex.exp_nat_mul]
    have : Complex.exp ((n : ℂ) * (2 * Real.pi * Complex.I * ((a : ℂ) - b) / n)) = 1 := by
      rw [Complex.exp_eq_one_iff]
      exact ⟨(a : ℤ) - b, by push_cast; field_simp⟩
    rw [this, sub_self, zero_div]

/-- Fourier inversion. -/
theorem dft_inversion (n : Nat) (x : Nat → ℂ) (m : Nat) (hm : m < n) :
    ∑ k ∈ range n, (1 / n * ∑ l ∈ range n, x l * Complex.exp (2 * Real.pi * Complex.I * k * l / n)) *
      Complex.exp (- (2 * Real.pi * Complex.I * k * m / n)) = x m := by
  have hn : (n : ℂ) ≠ 0 := Nat.cast_ne_zero.2 (by omega)
  have e : ∀ k : Nat, (1 / n * ∑ l ∈ range n, x l * Complex.exp (2 * Real.pi * Complex.I * k * l / n)) *
      Complex.exp (- (2 * Real.pi * Complex.I * k * m / n)) =
      ∑ l ∈ range n, x l / n * (Complex.exp (2 * Real.pi * Complex.I * k * l / n) * Complex.exp (- (2 * Real.pi * Complex.I * k * m / n))) := by
    intro k
    rw [mul_sum, sum_mul]
    exact sum_congr rfl fun l _ => by ring
  rw [sum_congr rfl fun k _ => e k, sum_comm]
  have e2 : ∀ l ∈ range n, ∑ k ∈ range n, x l / n * (Complex.exp (2 * Real.pi * Complex.I * k * l / n) * Complex.exp (- (2 * Real.pi * Complex.I * k * m / n))) =
      if l = m then x m else 0 := by
    intro l hl
    rw [mem_range] at hl
    rw [← mul_sum, orthogonality n l m hl hm]
    by_cases h : l = m
    · subst h; rw [if_pos rfl, if_pos rfl]; field_simp
    · rw [if_neg h, if_neg h, mul_zero]
  rw [sum_congr rfl e2, sum_ite_eq' (range n) m (fun _ => x m), if_pos (mem_range.2 hm)]

/-- **C28** `zFFTInv` after `zFFT` returns the original data, for every length. -/
theorem zFFT_roundtrip (n : Nat) (hn : 0 < n) (data : Nat → ℝ) (buf buf' : Nat → ℂ) :
    ∃ spec res, zFFT n n data buf = .ok spec ∧ zFFTInv n n spec buf' = .ok res ∧ ∀ m, m < n → res m = data m := by
  obtain ⟨spec, e1, h1⟩ := zFFT_correct n hn data buf
  obtain ⟨res, e2, h2⟩ := zFFTInv_correct n hn spec buf'
  refine ⟨spec, res, e1, e2, fun m hm => ?_⟩
  rw [h2 m hm]
  have : ∀ k ∈ range n, (if k = 0 then spec k else spec k / 2) * Complex.exp (- (2 * Real.pi * Complex.I * k * m / n)) =
      (1 / n * ∑ l ∈ range n, (data l : ℂ) * Complex.exp (2 * Real.pi * Complex.I * k * l / n)) *
      Complex.exp (- (2 * Real.pi * Complex.I * k * m / n)) := by
    intro k hk
    rw [mem_range] at hk
    congr 1
    rw [h1 k hk]
    unfold amp
    by_cases h0 : k = 0
    · rw [if_pos h0, if_pos h0]
    · rw [if_neg h0, if_neg h0]; ring
  rw [sum_congr rfl this, dft_inversion n (fun l => (data l : ℂ)) m hm]
  exact Complex.ofReal_re _

/-! ## Two dimensions -/

theorem rows_loop {α β : Type*} (N : Nat) (g : Nat → (Nat → α) × β → (Nat → α) × β) (G : Nat → α → Prop)
    (hg : ∀ i s, i < N → G i ((g i s).1 i) ∧ ∀ k, k ≠ i → (g i s).1 k = s.1 k) (s : (Nat → α) × β) :
    ∀ i, i < N → G i ((forUp 0 N g s).1 i) := by
  have := forUp_inv (lo := 0) (hi := N) g s (fun k t => ∀ i, i < k → G i (t.1 i)) (Nat.zero_le _)
    (by intro i hi; omega)
    (by
      intro k t _ hk h i hi
      obtain ⟨h1, h2⟩ := hg k t hk
      by_cases hik : i = k
      · subst hik; exact h1
      · rw [h2 i hik]; exact h i (by omega))
  exact this

/-- **C27** for two dimensions: `result[k][l] = a_k b_l Σ_{i,j} data[i][j] e^{2πi (k i / r + l j / c)}` with the amplitude
factors of rows and columns. -/
theorem zFFT2_correct (r c : Nat) (hr : 0 < r) (hc : 0 < c) (data : Nat → Nat → ℝ) (buf : Nat → ℂ) :
    ∃ res, zFFT2 r c r c data buf = .ok res ∧ ∀ k l, k < r → l < c →
      res k l = amp r k * ∑ i ∈ range r, (amp c l * ∑ j ∈ range c, (data i j : ℂ) *
        Complex.exp (2 * Real.pi * Complex.I * l * j / c)) * Complex.exp (2 * Real.pi * Complex.I * k * i / r) := by
  have hs : ∀ (n : Nat) (x : Nat → ℂ) k, dft n (2 * Real.pi / n) x k =
      ∑ m ∈ range n, x m * Complex.exp (2 * Real.pi * Complex.I * k * m / n) := by
    intro n x k
    unfold dft
    refine sum_congr rfl fun m _ => ?_
    congr 1
    push_cast
    congr 1
    ring
  unfold zFFT2
  rw [if_neg (by simp)]
  refine ⟨_, rfl, fun k l hk hl => ?_⟩
  simp only
  -- the row loop
  have hrow := forUp_inv (lo := 0) (hi := r) (fun i (s : (Nat → Nat → ℂ) × (Nat → ℂ)) =>
      (set1 s.1 i (set1 (inner c c (2 * Real.pi / c) 0 0 (s.1 i, s.2)).1 0
        ⟨((inner c c (2 * Real.pi / c) 0 0 (s.1 i, s.2)).1 0).re * (1/2), ((inner c c (2 * Real.pi / c) 0 0 (s.1 i, s.2)).1 0).im * (1/2)⟩),
        (inner c c (2 * Real.pi / c) 0 0 (s.1 i, s.2)).2)) ((fun i j => ⟨data i j, 0⟩ : Nat → Nat → ℂ), buf)
    (fun k s => (∀ i, k ≤ i → s.1 i = fun j => ⟨data i j, 0⟩) ∧
      ∀ i l, i < k → l < c → s.1 i l = (if l = 0 then 1/2 else 1) * dft c (2 * Real.pi / c) (fun j => ⟨data i j, 0⟩) l)
    (Nat.zero_le _) ⟨fun _ _ => rfl, by intro i l hi; omega⟩
    (by
      rintro k s - hk ⟨g1, g2⟩
      refine ⟨fun i hi => ?_, fun i l hi hl => ?_⟩
      · simp only; rw [set1_ne _ _ (by omega)]; exact g1 i (by omega)
      · by_cases hik : i = k
        · subst hik
          simp only
          rw [set1_same, g1 i (le_refl _)]
          by_cases h0 : l = 0
          · subst h0
            rw [set1_same, scale_eq, inner_fwd c hc _ _ 0 hc, if_pos rfl]; push_cast; ring
          · rw [set1_ne _ _ h0, inner_fwd c hc _ _ l hl, if_neg h0, one_mul]
        · simp only; rw [set1_ne _ _ hik]; exact g2 i l (by omega) hl)
  generalize forUp 0 r (fun i (s : (Nat → Nat → ℂ) × (Nat → ℂ)) =>
      (set1 s.1 i (set1 (inner c c (2 * Real.pi / c) 0 0 (s.1 i, s.2)).1 0
        ⟨((inner c c (2 * Real.pi / c) 0 0 (s.1 i, s.2)).1 0).re * (1/2), ((inner c c (2 * Real.pi / c) 0 0 (s.1 i, s.2)).1 0).im * (1/2)⟩),
        (inner c c (2 * Real.pi / c) 0 0 (s.1 i, s.2)).2)) ((fun i j => ⟨data i j, 0⟩ : Nat → Nat → ℂ), buf) = S at hrow ⊢
  replace hrow := hrow.2
  -- after the amplitude correction
  obtain ⟨T, hT⟩ : ∃ T : Nat → Nat → ℂ, T = fun i j => (⟨(S.1 i j).re * (2 / c), (S.1 i j).im * (2 / c)⟩ : ℂ) := ⟨_, rfl⟩
  rw [← hT]
  have hTv : ∀ i l, i < r → l < c → T i l = amp c l * ∑ j ∈ range c, (data i j : ℂ) * Complex.exp (2 * Real.pi * Complex.I * l * j / c) := by
    intro i l hi hl
    rw [hT]
    simp only
    rw [scale_eq, hrow i l hi hl, hs]
    unfold amp
    have : ∀ j, (⟨data i j, 0⟩ : ℂ) = (data i j : ℂ) := fun _ => rfl
    simp only [this]
    split <;> (push_cast; ring)
  -- the column loop
  have hcol := forUp_inv (lo := 0) (hi := c) (fun j (s : (Nat → Nat → ℂ) × (Nat → ℂ)) =>
      ((fun i k => if k = j then set1 (inner r r (2 * Real.pi / r) 0 0 (fun i => s.1 i j, s.2)).1 0
        ⟨((inner r r (2 * Real.pi / r) 0 0 (fun i => s.1 i j, s.2)).1 0).re * (1/2), ((inner r r (2 * Real.pi / r) 0 0 (fun i => s.1 i j, s.2)).1 0).im * (1/2)⟩ i
        else s.1 i k : Nat → Nat → ℂ), (inner r r (2 * Real.pi / r) 0 0 (fun i => s.1 i j, s.2)).2)) (T, S.2)
    (fun q s => (∀ i j, q ≤ j → s.1 i j = T i j) ∧
      ∀ k l, k < r → l < q → s.1 k l = (if k = 0 then 1/2 else 1) * dft r (2 * Real.pi / r) (fun i => T i l) k)
    (Nat.zero_le _) ⟨fun _ _ _ => rfl, by intro k l _ hl; omega⟩
    (by
      rintro q s - hq ⟨g1, g2⟩
      refine ⟨fun i j hj => ?_, fun k l hk hl => ?_⟩
      · simp only; rw [if_neg (by omega)]; exact g1 i j (by omega)
      · by_cases hlq : l = q
        · subst hlq
          simp only
          rw [if_pos trivial]
          have : (fun i => s.1 i l) = fun i => T i l := by funext i; exact g1 i l (le_refl _)
          rw [this]
          by_cases h0 : k = 0
          · subst h0
            rw [set1_same, scale_eq, inner_fwd r hr _ _ 0 hr, if_pos rfl]; push_cast; ring
          · rw [set1_ne _ _ h0, inner_fwd r hr _ _ k hk, if_neg h0, one_mul]
        · simp only; rw [if_neg hlq]; exact g2 k l hk (by omega))
  rw [scale_eq, hcol.2 k l hk hl, hs]
  have : ∑ i ∈ range r, T i l * Complex.exp (2 * Real.pi * Complex.I * k * i / r) = ∑ i ∈ range r, (amp c l * ∑ j ∈ range c, (data i j : ℂ) *
        Complex.exp (2 * Real.pi * Complex.I * l * j / c)) * Complex.exp (2 * Real.pi * Complex.I * k * i / r) :=
    sum_congr rfl fun i hi => by rw [hTv i l (mem_range.1 hi) hl]
  rw [this]
  generalize ∑ i ∈ range r, (amp c l * ∑ j ∈ range c, (data i j : ℂ) *
        Complex.exp (2 * Real.pi * Complex.I * l * j / c)) * Complex.exp (2 * Real.pi * Complex.I * k * i / r) = Z
  unfold amp
  split <;> (push_cast; ring)

theorem invAmp_apply (x : Nat → ℂ) (k : Nat) : invAmp x k = if k = 0 then x k else x k / 2 := by
  unfold invAmp
  simp only
  by_cases h0 : k = 0
  · subst h0
    rw [set1_same, if_pos rfl]; apply Complex.ext <;> (simp; try ring)
  · rw [set1_ne _ _ h0, if_neg h0, scale_eq]; push_cast; ring

/-- One-dimensional inversion in the form used by `zFFT2Inv`. -/
theorem invAmp_inversion (n : Nat) (hn : 0 < n) (x y : Nat → ℂ)
    (hy : ∀ k, k < n → y k = amp n k * ∑ l ∈ range n, x l * Complex.exp (2 * Real.pi * Complex.I * k * l / n)) (b : Nat → ℂ)
    (m : Nat) (hm : m < n) : (inner n n (- (2 * Real.pi) / n) 0 0 (invAmp y, b)).1 m = x m := by
  rw [inner_bwd n hn _ _ m hm, ← dft_inversion n x m hm]
  unfold dft
  refine sum_congr rfl fun k hk => ?_
  rw [mem_range] at hk
  congr 1
  · rw [invAmp_apply, hy k hk]
    unfold amp
    by_cases h0 : k = 0
    · rw [if_pos h0, if_pos h0]
    · rw [if_neg h0, if_neg h0]; ring
  · push_cast
    congr 1
    ring

/-- **C28** for two dimensions. -/
theorem zFFT2_roundtrip (r c : Nat) (hr : 0 < r) (hc : 0 < c) (data : Nat → Nat → ℝ) (buf buf' : Nat → ℂ) :
    ∃ spec res, zFFT2 r c r c data buf = .ok spec ∧ zFFT2Inv r c r c spec buf' = .ok res ∧
      ∀ i j, i < r → j < c → res i j = data i j := by
  obtain ⟨spec, e1, h1⟩ := zFFT2_correct r c hr hc data buf
  refine ⟨spec, ?_⟩
  unfold zFFT2Inv
  rw [if_neg (by simp)]
  refine ⟨_, e1, rfl, fun i j hi hj => ?_⟩
  simp only
  -- columns
  have hcol := forUp_inv (lo := 0) (hi := c) (fun j (s : (Nat → Nat → ℂ) × (Nat → ℂ)) =>
      ((fun i k => if k = j then (inner r r (- (2 * Real.pi) / r) 0 0 (invAmp (fun i => spec i j), s.2)).1 i else s.1 i k : Nat → Nat → ℂ),
        (inner r r (- (2 * Real.pi) / r) 0 0 (invAmp (fun i => spec i j), s.2)).2)) ((fun _ _ => 0 : Nat → Nat → ℂ), buf')
    (fun q s => ∀ i l, i < r → l < q → s.1 i l = amp c l * ∑ j ∈ range c, (data i j : ℂ) * Complex.exp (2 * Real.pi * Complex.I * l * j / c))
    (Nat.zero_le _) (by intro i l _ hl; omega)
    (by
      intro q s _ hq g i l hi hl
      by_cases hlq : l = q
      · subst hlq
        simp only
        rw [if_pos trivial]
        exact invAmp_inversion r hr (fun i => amp c l * ∑ j ∈ range c, (data i j : ℂ) * Complex.exp (2 * Real.pi * Complex.I * l * j / c))
          (fun i => spec i l) (fun k hk => h1 k l hk hq) _ i hi
      · simp only; rw [if_neg hlq]; exact g i l hi (by omega))
  generalize forUp 0 c (fun j (s : (Nat → Nat → ℂ) × (Nat → ℂ)) =>
      ((fun i k => if k = j then (inner r r (- (2 * Real.pi) / r) 0 0 (invAmp (fun i => spec i j), s.2)).1 i else s.1 i k : Nat → Nat → ℂ),
        (inner r r (- (2 * Real.pi) / r) 0 0 (invAmp (fun i => spec i j), s.2)).2)) ((fun _ _ => 0 : Nat → Nat → ℂ), buf') = S at hcol ⊢
  have hrow := rows_loop r (fun i (s : (Nat → Nat → ℝ) × (Nat → ℂ)) =>
      (set1 s.1 i (fun j => ((inner c c (- (2 * Real.pi) / c) 0 0 (invAmp (S.1 i), s.2)).1 j).re),
        (inner c c (- (2 * Real.pi) / c) 0 0 (invAmp (S.1 i), s.2)).2))
    (fun i row => ∀ j, j < c → row j = data i j)
    (by
      intro i s hi
      refine ⟨fun j hj => ?_, fun k hk => ?_⟩
      · simp only
        rw [set1_same, invAmp_inversion c hc (fun j => (data i j : ℂ)) (S.1 i) (fun k hk => hcol i k hi hk) _ j hj]
        exact Complex.ofReal_re _
      · simp only; rw [set1_ne _ _ hk]) ((fun _ _ => 0 : Nat → Nat → ℝ), S.2) i hi
  exact hrow j hj

theorem zFFT2_mismatch (r c r' c' : Nat) (h : r ≠ r' ∨ c ≠ c') (data : Nat → Nat → ℝ) (cdata : Nat → Nat → ℂ) (buf : Nat → ℂ) :
    zFFT2 r c r' c' data buf = .fail ∧ zFFT2Inv r c r' c' cdata buf = .fail := by
  unfold zFFT2 zFFT2Inv; rw [if_pos h, if_pos h]; exact ⟨rfl, rfl⟩

/-! Non-vacuity: the theorems apply to every positive length; e.g. the composite length 6 uses radix 2 and then 3, the prime 7
uses radix 7. -/
example : radix 6 = 2 ∧ radix 3 = 3 ∧ radix 7 = 7 ∧ radix 15 = 3 := by decide
example : ∃ res, zFFT 6 6 (fun m => m) (fun _ => 0) = .ok res ∧ res 0 = amp 6 0 * 15 := by
  obtain ⟨res, e, h⟩ := zFFT_correct 6 (by norm_num) (fun m => m) (fun _ => 0)
  refine ⟨res, e, ?_⟩
  rw [h 0 (by norm_num)]
  congr 1
  simp [sum_range_succ]
  norm_num

end Zm.FFT
