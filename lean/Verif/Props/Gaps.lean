import Verif.Props.ClusterMore
import Verif.Props.RANSAC
import Verif.Props.Stat
import Verif.Props.Rand
import Verif.Props.IPSec
import Verif.Props.IPHermite
import Verif.Props.OptDM
import Verif.Props.OneD

/-! # Remaining functions of C32, C34, C46, C97, C206 and C220 -/

set_option linter.unusedSectionVars false

namespace Zm.RANSAC

variable {K P Q : Type*} [Field K] [LinearOrder K]

/-- **C206**, with the inliers kept apart: as `zRANSACAuto_spec`, and the inliers and the rest together rearrange the samples. -/
theorem zRANSACSaveInlierAuto_spec [IsStrictOrderedRing K] [FloorRing K] (rnd : Nat → Nat → Nat) (hr : InRange rnd) (fit : Q → List P → Q) (err : Q → P → K) (z : Q)
    (dim : Nat) (rate nl : K) (h0 : 0 ≤ rate) (h1 : rate ≤ 1) (q : Q) (sample : List P) :
    ∃ (ns : Nat) (q' : Q) (cands : List Q) (stay inl : List P), ns * 2 ≤ sample.length ∧ ns ≤ 5 * dim ∧
      zRANSACSaveInlierAuto rnd fit err z dim rate nl q sample = .ok (fit q' inl, stay, inl) ∧ (inl ++ stay).Perm sample ∧
      inl.Perm (inliers err (nl / 5) q' sample) ∧ cands.length = 3 * ns ∧ Tried fit ns sample z cands ∧
      Kept (fun x => (inliers err (nl / 10) x sample).length) q 0 cands q' := by
  obtain ⟨a, b, c⟩ := autoNumber_range dim sample.length rate h0 h1
  obtain ⟨ns, hns⟩ := Int.eq_ofNat_of_zero_le a
  have hle : autoNumber dim sample.length rate ≤ sample.length := by omega
  obtain ⟨q', cands, stay, inl, e1, e2, e3, e4, e5, e6⟩ :=
    zRANSACSaveInlier_spec rnd hr fit err z (autoNumber dim sample.length rate) (autoNumber dim sample.length rate * 3) (1/10 * nl) q sample hle
  have t1 : (1/10 * nl * 2 : K) = nl / 5 := by ring
  have t2 : (1/10 * nl : K) = nl / 10 := by ring
  rw [t1] at e3
  rw [t2] at e6
  rw [hns] at e4 e5
  refine ⟨ns, q', cands, stay, inl, by omega, by omega, e1, e2, e3, ?_, by simpa using e5, e6⟩
  rw [e4]
  omega

end Zm.RANSAC

namespace Zm.Stat

variable {K : Type*} [Field K] [LinearOrder K] [IsStrictOrderedRing K] [FloorRing K]

/-- **C46.** The middle of every bin but the last: half a bin above its lower limit. -/
theorem zHistogramBinMid_spec (h : Hist K) (i : Nat) (hi : i + 1 < h.num) :
    zHistogramBinMid h i = h.min + (h.max - h.min) * (2 * i + 1) / (2 * h.num) := by
  obtain ⟨a, b⟩ := zHistogramBin_limits h i (by omega)
  unfold zHistogramBinMid
  rw [b hi, a]
  have : (h.num : K) ≠ 0 := by exact_mod_cast (show h.num ≠ 0 by omega)
  field_simp
  ring

example : zHistogramBinMid (⟨0, 8, 4, fun _ => 0⟩ : Hist ℚ) 1 = 3 := by
  rw [show (1 : Int) = ((1 : Nat) : Int) by rfl, zHistogramBinMid_spec _ 1 (by norm_num)]
  norm_num

/-- **C46 is violated** by the middle of the last bin, which is reported to be its lower limit. -/
theorem zHistogramBinMid_last_violated (h : Hist K) (hr : h.min < h.max) (hn : 0 < h.num) :
    zHistogramBinMid h ((h.num : Int) - 1) = zHistogramBinMin h ((h.num : Int) - 1) := by
  obtain ⟨a, -⟩ := zHistogramBinMax_last_violated h hr hn
  unfold zHistogramBinMid
  rw [a]
  ring

end Zm.Stat

namespace Zm.Rnd

/-- **C97.** A normal variate of given mean and deviation is the standard one scaled and moved, and two successive ones, starting with an even number drawn so far,
have the distance from the mean of one radius. -/
theorem zRandND_spec (U : Nat → ℝ) (mu sigma : ℝ) (pos : Nat) (l : ℝ) (h0 : 0 ≤ U pos) (h1 : U pos < 1) :
    (∀ mt, (zRandND U mu sigma mt).1 = mu + sigma * (zRandND0 U mt).1 ∧ (zRandND U mu sigma mt).2 = (zRandND0 U mt).2) ∧
    ((zRandND U mu sigma ⟨pos, false, l⟩).1 - mu) ^ 2 + ((zRandND U mu sigma (zRandND U mu sigma ⟨pos, false, l⟩).2).1 - mu) ^ 2 = sigma ^ 2 * (2 * zRandExp (U pos)) := by
  refine ⟨fun mt => ⟨rfl, rfl⟩, ?_⟩
  have := zRandND0_radius U pos l h0 h1
  show (mu + sigma * (zRandND0 U ⟨pos, false, l⟩).1 - mu) ^ 2 + (mu + sigma * (zRandND0 U (zRandND0 U ⟨pos, false, l⟩).2).1 - mu) ^ 2 = _
  rw [← this]
  ring

end Zm.Rnd

namespace Zm.IP

/-- **C32.** The section accessor: the reported velocity at every knot is the velocity of the curve there; behind the last knot it is zero. -/
theorem splSecVel_knot (n : Nat) (hn : 2 ≤ n) (dt x va : Nat → ℝ) (hdt : ∀ i, 0 < i → i < n → 0 < dt i) (i : Nat) :
    (i < n → splSecVel n va i = splVel n dt (knotTime dt) x va (knotTime dt i)) ∧ (n ≤ i → splSecVel n va i = 0) := by
  unfold splSecVel
  constructor
  · intro hi
    rw [if_neg (by omega), (splVec_knot n hn dt x va hdt i hi).2]
  · intro hi
    rw [if_pos hi]

/-- The slopes of a straight line. -/
theorem akSlopes_line (n : Nat) (hn : 3 ≤ n) (dt m : Nat → ℝ) (hdt : ∀ i, 0 < i → i < n → 0 < dt i) (a s : ℝ) (j : Nat) (h1 : 2 ≤ j) (h2 : j ≤ n) :
    akSlopes n dt (fun i => a + s * knotTime dt i) m j = s := by
  obtain ⟨e, -⟩ := akSlopes_spec n hn dt (fun i => a + s * knotTime dt i) m
  rw [e j h1 h2]
  have hd := (hdt (j-1) (by omega) (by omega)).ne'
  obtain ⟨k, rfl⟩ : ∃ k, j = k + 2 := ⟨j - 2, by omega⟩
  simp only [show k + 2 - 1 = k + 1 by omega, show k + 2 - 2 = k by omega] at *
  rw [show a + s * knotTime dt (k+1) - (a + s * knotTime dt k) = s * dt (k+1) by simp only [knotTime]; ring]
  field_simp

/-- **C34 (what holds of the modified weight).** Away from the edges the modified Akima interpolator has the slope of a straight line that is not flat, unlike the original. -/
theorem akCreateMod_line_partial (tol : ℝ) (htol : 0 ≤ tol) (n : Nat) (hn : 3 ≤ n) (dt m va : Nat → ℝ) (hdt : ∀ i, 0 < i → i < n → 0 < dt i) (a s : ℝ) (hs : tol < |s|)
    (j : Nat) (h1 : 2 ≤ j) (h2 : j + 3 ≤ n) : akCreate tol akWeightMod n dt (fun i => a + s * knotTime dt i) m va j = s := by
  rw [akCreate_spec _ _ _ _ _ _ _ _ (by omega)]
  have e := akSlopes_line n hn dt m hdt a s
  have w1 : akWeightMod (akSlopes n dt (fun i => a + s * knotTime dt i) m) j = |s| := by
    unfold akWeightMod
    rw [e j h1 (by omega), e (j+1) (by omega) (by omega), sub_self, abs_zero, ← two_mul, abs_mul, abs_two]
    ring
  have w2 : akWeightMod (akSlopes n dt (fun i => a + s * knotTime dt i) m) (j+2) = |s| := by
    unfold akWeightMod
    rw [e (j+2) (by omega) (by omega), e (j+2+1) (by omega) (by omega), sub_self, abs_zero, ← two_mul, abs_mul, abs_two]
    ring
  simp only [w1, w2, abs_abs]
  rw [if_neg (by push Not; intro _; exact hs), e (j+1) (by omega) (by omega), e (j+2) (by omega) (by omega)]
  have : |s| ≠ 0 := by linarith [abs_nonneg s]
  field_simp

example : ∃ dt : Nat → ℝ, (∀ i, 0 < i → i < 6 → 0 < dt i) ∧ (1 / 10 ^ 12 : ℝ) < |2| ∧ 2 + 3 ≤ 6 := ⟨fun _ => 1, fun _ _ _ => one_pos, by norm_num, by norm_num⟩

/-- **C34, violated.** At the last knot the modified interpolator does not have the slope of a straight line either. -/
theorem akCreateMod_edge_violated (tol : ℝ) (htol : 0 ≤ tol) (n : Nat) (hn : 3 ≤ n) (dt m va : Nat → ℝ) (hdt : ∀ i, 0 < i → i < n → 0 < dt i) (a s : ℝ) (hs : tol < |s|) :
    akCreate tol akWeightMod n dt (fun i => a + s * knotTime dt i) m va (n-1) ≠ s := by
  rw [akCreate_spec _ _ _ _ _ _ _ _ (by omega)]
  have e := akSlopes_line n hn dt m hdt a s
  obtain ⟨-, -, -, e1, e2⟩ := akSlopes_spec n hn dt (fun i => a + s * knotTime dt i) m
  have en := e n (by omega) le_rfl
  have en1 := e (n-1) (by omega) (by omega)
  rw [en, en1, sub_self] at e1
  rw [en, en1] at e2
  obtain ⟨k, rfl⟩ : ∃ k, n = k + 1 := ⟨n - 1, by omega⟩
  simp only [show k + 1 - 1 = k by omega] at *
  simp only [akWeightMod, show k + 2 + 1 = k + 3 by omega, show k + 1 + 1 = k + 2 by omega, show k + 1 + 2 = k + 3 by omega] at *
  rw [en, en1, e1, e2]
  have ps : 0 < |s| := by linarith
  have c1 : |s - s| + 1/2 * |s + s| = |s| := by rw [sub_self, abs_zero, ← two_mul, abs_mul, abs_two]; ring
  have c2 : |3 * s - s - 0| + 1/2 * |3 * s - s + 0| = 3 * |s| := by
    rw [show 3 * s - s - 0 = 2 * s by ring, show 3 * s - s + 0 = 2 * s by ring, abs_mul, abs_two]; ring
  rw [c1, c2, if_neg (by rw [abs_abs]; push Not; intro h; linarith), mul_zero, add_zero]
  intro h
  have : 3 * |s| * s / (|s| + 3 * |s|) = 3/4 * s := by field_simp; norm_num
  rw [this] at h
  have : s = 0 := by linarith
  rw [this, abs_zero] at ps
  exact lt_irrefl _ ps

end Zm.IP

namespace Zm.OptDM
open Zm LE Misc

variable {K : Type*} [Field K] [LinearOrder K] [IsStrictOrderedRing K]

theorem inner_cg (n : Nat) (g d : Nat → K) (b : K) : inner n g (fun i => d i * b + g i) = b * inner n g d + inner n g g := by
  rw [inner_dot, inner_dot, inner_dot]
  unfold dot
  rw [Finset.mul_sum, ← Finset.sum_add_distrib]
  exact Finset.sum_congr rfl fun i _ => by ring

/-- **C220**, conjugate gradients: the first direction is the gradient, and where the line search before ended at a stationary point of its line, the next direction descends as
the gradient does. -/
theorem vecCG_direction (n : Nat) (st : DM K) (var : Nat → K) :
    ∃ st', vecCG st var = .ok st' ∧ st'.g = st.g ∧ (st.b = 0 → st'.d = st.g) ∧ (st.b = 0 ∨ inner n st.g st.d = 0 → inner n st'.g st'.d = inner n st.g st.g) := by
  refine ⟨_, rfl, rfl, fun h => ?_, fun h => ?_⟩
  · funext i
    simp [h]
  · show inner n st.g (fun i => st.d i * st.b + st.g i) = _
    rw [inner_cg]
    rcases h with h | h <;> rw [h] <;> ring

/-- **C220**, conjugate gradients: when the directions are started again. -/
theorem updateNone_restart (n : Nat) (hn : 0 < n) (st : DM K) (count : Nat) :
    ∃ st', updateNone n st count = .ok st' ∧ st'.d = st.d ∧ st'.g = st.g ∧ st'.b = if n = 1 ∨ count % n = 1 then 0 else st.b := by
  refine ⟨_, rfl, ?_, ?_, ?_⟩
  · split <;> rfl
  · split <;> rfl
  · have : (((count : Int) - 1).tmod n = 0) ↔ (n = 1 ∨ count % n = 1) := by
      rw [← Int.dvd_iff_tmod_eq_zero]
      constructor
      · rintro ⟨k, hk⟩
        by_cases h1 : n = 1
        · exact Or.inl h1
        right
        have e : (count : Int) = n * k + 1 := by omega
        have : ((count % n : Nat) : Int) = 1 := by
          rw [Int.natCast_mod, e, Int.add_comm, Int.add_mul_emod_self_left]
          exact Int.emod_eq_of_lt (by omega) (by omega)
        exact_mod_cast this
      · rintro (h | h)
        · rw [h]; exact one_dvd _
        · refine ⟨(count / n : Nat), ?_⟩
          have := Nat.div_add_mod count n
          rw [h] at this
          have : (count : Int) = n * (count / n : Nat) + 1 := by exact_mod_cast this.symm
          omega
    by_cases c : ((count : Int) - 1).tmod n = 0
    · rw [if_pos c, if_pos (this.1 c)]
    · rw [if_neg c, if_neg (fun h => c (this.2 h))]

/-- **C220, violated.** Conjugate gradients of three dimensions or more are started again after the second direction already, and not after as many as there are dimensions. -/
theorem updateNone_early_violated (n : Nat) (hn : 3 ≤ n) (st : DM K) :
    (∃ st', updateNone n st 1 = .ok st' ∧ st'.b = 0) ∧ (∃ st', updateNone n st (n-1) = .ok st' ∧ st'.b = st.b) := by
  obtain ⟨s1, a1, -, -, b1⟩ := updateNone_restart n (by omega) st 1
  obtain ⟨s2, a2, -, -, b2⟩ := updateNone_restart n (by omega) st (n-1)
  refine ⟨⟨s1, a1, ?_⟩, ⟨s2, a2, ?_⟩⟩
  · rw [b1, if_pos (Or.inr (Nat.mod_eq_of_lt (by omega)))]
  · rw [b2, if_neg]
    rw [Nat.mod_eq_of_lt (by omega)]
    omega

/-- **C220, violated.** A second solution with conjugate gradients starts in the direction of what the first left behind: in two dimensions or more, if the first was stopped
after one turn, its direction times the quotient of the squares of the gradients is added to the gradient. -/
theorem vecCG_leftover_violated (P : Prob K) (hn : 2 ≤ P.n) (gold eps : K) (hg0 : 0 ≤ gold) (hg1 : gold ≤ 1) (heps : 0 ≤ eps) (hz : 0 ≤ P.ztol) (f : (Nat → K) → K) (tol e0 : K) (var var2 : Nat → K) (R : Solved K) (he : P.eval var = some e0)
    (h : zOptDMSolve P vecCG (stepBrent P gold eps f) (updateNone P.n) tol 1 created var = .ok R) (hr : R.ret = -1) :
    ∃ st2, vecCG (started P R.ws var2) var2 = .ok st2 ∧
      ∀ i, st2.d i = P.grad var2 i + inner P.n (P.grad R.var) (P.grad R.var) / inner P.n (P.grad var) (P.grad var) * P.grad var i := by
  refine ⟨_, rfl, fun i => ?_⟩
  show R.ws.d i * R.ws.b + P.grad var2 i = _
  unfold zOptDMSolve at h
  simp only at h
  split at h
  · simp only [Res.ok.injEq] at h
    rw [← h] at hr
    simp at hr
  rw [show OneD.iterInit 1 = 1 by decide, he] at h
  simp only [solveLoop, vecCG, Res.bind, stepBrent] at h
  simp only [started, created, zero_mul, zero_add] at h
  obtain ⟨a, ha, -⟩ := OneD.zOptLineBrent_safe (fun a => f (fun i => var i - a * P.grad var i)) gold eps P.ztol 0 1 100 hg0 hg1 heps hz zero_le_one
  rw [ha] at h
  simp only at h
  split at h
  · cases h
  · next heq => exfalso; split at heq <;> cases heq
  · next st' v' e' heq =>
    split at heq
    · cases heq
    simp only [Res.ok.injEq, Prod.mk.injEq] at heq
    obtain ⟨h1, h2, h3⟩ := heq
    split at h
    · simp only [Res.ok.injEq] at h
      rw [← h] at hr
      simp at hr
    obtain ⟨s', u1, u2, u3, u4⟩ := updateNone_restart P.n (by omega) st' 0
    rw [u1] at h
    simp only [Res.ok.injEq] at h
    rw [← h]
    simp only
    rw [u2, u4, if_neg (by rw [Nat.zero_mod]; omega), ← h1, ← h2]
    ring

/-- A bowl of two dimensions. -/
def bowl : Prob ℚ :=
  { n := 2, eval := fun x => some (x 0 ^ 2 / 2 + x 1 ^ 2), grad := fun x i => if i = 0 then x 0 else 2 * x 1, hess := fun _ i j => if i = j then 1 + i else 0,
    scale := 1000, ztol := 1 / 100, df := 1 / 10000, cf := 9 / 10 }

/-- The hypotheses of `vecCG_leftover_violated` for it: one turn leads from (1,1) to (4/9,-1/9). -/
example : (match zOptDMSolve bowl vecCG (stepBrent bowl (38/100) (1/100) fun x => x 0 ^ 2 / 2 + x 1 ^ 2) (updateNone 2) (1 / 100) 1 created (fun _ => 1) with
      | .ok R => decide (R.ret = -1 ∧ R.var 0 = 4 / 9 ∧ R.var 1 = -1 / 9) | _ => false) = true := by decide +kernel

/-- Which steps are tried: where the step is not tiny, none is longer than the scale in any component. -/
theorem stepTest_scale (P : Prob K) (d var : Nat → K) (e0 df : K) : ∀ (k : Nat) (a : K) (p x : Nat → K) (e : Option K) (t : Tested K),
    stepTest P d var e0 df k a p x e = .ok t → P.ztol < t.a → absMax P.n t.p ≤ P.scale := by
  intro k
  induction k with
  | zero => intro a p x e t h; simp [stepTest] at h
  | succ k ih =>
    intro a p x e t h ht
    unfold stepTest at h
    by_cases c : a > P.ztol
    · rw [if_pos c] at h
      simp only at h
      split at h
      · exact ih _ _ _ _ _ h ht
      · split at h
        · exact ih _ _ _ _ _ h ht
        · next hm =>
          simp only [Res.ok.injEq] at h
          rw [← h]
          exact not_lt.1 hm
    · rw [if_neg c] at h
      simp only [Res.ok.injEq] at h
      rw [← h] at ht
      exact absurd ht c

end Zm.OptDM
