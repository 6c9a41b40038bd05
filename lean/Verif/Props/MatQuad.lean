import Verif.Model.MatQuad
import Verif.Props.MatMore
import Verif.Props.LEGen

/-! # Products of three matrices (C200) -/

set_option linter.unusedSectionVars false

namespace Zm.Mat
open Zm RawVec RawMat Vec Finset
variable {K : Type*}

/-- A loop that may fail follows a loop on functions. -/
theorem forUpM_sim {σ τ : Type*} (R : σ → τ → Prop) {lo hi : Nat} (F : Nat → σ → Res σ) (G : Nat → τ → τ) (s : σ) (t : τ) (hle : lo ≤ hi) (h0 : R s t)
    (step : ∀ i s t, lo ≤ i → i < hi → R s t → ∃ s', F i s = .ok s' ∧ R s' (G i t)) : ∃ s', forUpM lo hi F s = .ok s' ∧ R s' (forUp lo hi G t) := by
  have h := forUpM_ok F s (fun i s => R s (forUp lo i G t)) hle (by simpa using h0) (by
    intro i s h1 h2 h3
    obtain ⟨s', e, r⟩ := step i s _ h1 h2 h3
    exact ⟨s', e, by rw [forUp_succ h1]; exact r⟩)
  exact h

theorem at_lt {m : MatRef} {h : Mem K} (im : m.In h) {i j : Nat} (hi : i < m.rows) (hj : j < m.cols) : m.at i j < h.size := by
  have h1 : (i+1) * m.colcap ≤ m.rowcap * m.colcap := Nat.mul_le_mul_right _ (by have := im.1; omega)
  rw [Nat.add_mul] at h1
  have := im.2.1
  have := im.2.2
  unfold MatRef.at
  omega

theorem at_inj {m : MatRef} {h : Mem K} (im : m.In h) {i j i' j' : Nat} (hj : j < m.cols) (hj' : j' < m.cols) (e : m.at i j = m.at i' j') : i = i' ∧ j = j' := by
  have hc := im.2.1
  unfold MatRef.at at e
  rcases Nat.lt_trichotomy i i' with g | g | g
  · have h1 : (i+1) * m.colcap ≤ i' * m.colcap := Nat.mul_le_mul_right _ g
    rw [Nat.add_mul] at h1
    omega
  · subst g
    exact ⟨rfl, by omega⟩
  · have h1 : (i'+1) * m.colcap ≤ i * m.colcap := Nat.mul_le_mul_right _ g
    rw [Nat.add_mul] at h1
    omega

theorem rd_self {m : MatRef} {h h' : Mem K} {f : Nat → Nat → K} (im : m.In h) (hf : MatIs h m f h') {i j : Nat} (hi : i < m.rows) (hj : j < m.cols) : h'.rd (m.at i j) = .ok (f i j) := by
  rw [Mem.rd_ok _ (by rw [hf.1]; exact at_lt im hi hj)]
  exact congrArg _ (hf.2.1 i j hi hj)

theorem wr_self {m : MatRef} {h h' : Mem K} {f : Nat → Nat → K} (im : m.In h) (hf : MatIs h m f h') {i j : Nat} (hi : i < m.rows) (hj : j < m.cols) (x : K) :
    ∃ h'', h'.wr (m.at i j) x = .ok h'' ∧ MatIs h m (set2 f i j x) h'' := by
  refine ⟨_, Mem.wr_ok _ x (by rw [hf.1]; exact at_lt im hi hj), hf.1, ?_, ?_⟩
  · intro i' j' hi' hj'
    show (if m.buf + i' * m.colcap + j' = m.at i j then x else h'.val _) = _
    by_cases e : m.buf + i' * m.colcap + j' = m.at i j
    · obtain ⟨rfl, rfl⟩ := at_inj im hj' hj e
      rw [if_pos e]
      simp [set2]
    · rw [if_neg e]
      have hne : ¬ (i' = i ∧ j' = j) := by rintro ⟨rfl, rfl⟩; exact e rfl
      rw [show set2 f i j x i' j' = f i' j' from if_neg hne]
      exact hf.2.1 i' j' hi' hj'
  · intro a ha
    show (if a = m.at i j then x else h'.val a) = _
    rw [if_neg (show ¬ a = m.at i j from ha i j hi hj)]
    exact hf.2.2 a ha

theorem rd_other {a m : MatRef} {h h' : Mem K} {f : Nat → Nat → K} (ia : a.In h) (im : m.In h) (s : a.Disj m) (hf : MatIs h m f h') {i j : Nat} (hi : i < a.rows) (hj : j < a.cols) :
    h'.rd (a.at i j) = .ok (elem h a i j) := by
  rw [Mem.rd_ok _ (by rw [hf.1]; exact at_lt ia hi hj)]
  refine congrArg _ (hf.2.2 _ ?_)
  exact sep_of_apart ia im s i j hi hj

theorem rd_vec {v : VecRef} {m : MatRef} {h h' : Mem K} {f : Nat → Nat → K} (iv : v.In h) (im : m.In h) (s : m.VDisj v) (hf : MatIs h m f h') {i : Nat} (hi : i < v.size) :
    h'.rd (v.buf + i) = .ok (velem h v i) := by
  rw [Mem.rd_ok _ (by rw [hf.1]; unfold VecRef.In at iv; omega)]
  exact congrArg _ (hf.2.2 _ (vout im s i hi))

variable [Field K] [LinearOrder K] [IsStrictOrderedRing K]

theorem addElem_spec {m : MatRef} {h h' : Mem K} {f : Nat → Nat → K} (im : m.In h) (hf : MatIs h m f h') {i j : Nat} (hi : i < m.rows) (hj : j < m.cols) (x : K) :
    ∃ h'', addElem m i j x h' = .ok h'' ∧ MatIs h m (set2 f i j (f i j + x)) h'' := by
  unfold addElem
  rw [rd_self im hf hi hj]
  exact wr_self im hf hi hj _

/-- The weights in a memory. -/
def weights (h : Mem K) (w : Option VecRef) : Option (Nat → K) := w.map fun v => velem h v

theorem quadAccMem_spec {q : MatRef} {h h1 : Mem K} {f : Nat → Nat → K} (iq : q.In h) (hf : MatIs h q f h1) (n l : Nat) (el : Nat → Nat → Nat) (e : Nat → Nat → K) (w : Option VecRef)
    (hn : n = q.rows) (hsq : q.rows = q.cols)
    (hel : ∀ h' f', MatIs h q f' h' → ∀ i k, i < n → k < l → h'.rd (el i k) = .ok (e i k)) (hw : ∀ v ∈ w, v.In h ∧ q.VDisj v ∧ l = v.size) :
    ∃ h', quadAccMem n l el w q h1 = .ok h' ∧ MatIs h q (forUp 0 l (fun k q => forUp 0 n (LE.quadTerm n k (weights h w) (fun i => e i k)) q) f) h' := by
  unfold quadAccMem
  refine forUpM_sim (fun h' f' => MatIs h q f' h') _ _ h1 f (Nat.zero_le _) hf fun k h' f' _ hk hf' => ?_
  refine forUpM_sim (fun h' f' => MatIs h q f' h') _ _ h' f' (Nat.zero_le _) hf' fun i h' f' _ hi hf' => ?_
  rw [hel h' f' hf' i k hi hk]
  simp only [Res.bind]
  have hwt : weighted w k (e i k) h' = .ok (LE.quadWa (weights h w) k (e i k)) := by
    cases w with
    | none => rfl
    | some v =>
      obtain ⟨iv, s, hl⟩ := hw v rfl
      show (h'.rd (v.buf + k)).bind _ = _
      rw [rd_vec (i := k) iv iq s hf' (by omega)]
      rfl
  rw [hwt]
  simp only [LE.quadTerm]
  refine forUpM_sim (fun h' f' => MatIs h q f' h') _ _ h' f' hi.le hf' fun j h' f' _ hj hf' => ?_
  rw [hel h' f' hf' j k hj hk]
  exact addElem_spec iq hf' (by omega) (by omega) _

theorem quadCopyMem_spec {q : MatRef} {h h1 : Mem K} {f : Nat → Nat → K} (iq : q.In h) (hf : MatIs h q f h1) (n : Nat) (hn : n = q.rows) (hsq : q.rows = q.cols) :
    ∃ h', quadCopyMem n q h1 = .ok h' ∧ MatIs h q (LE.quadCopy n f) h' := by
  unfold quadCopyMem LE.quadCopy
  refine forUpM_sim (fun h' f' => MatIs h q f' h') _ _ h1 f (Nat.zero_le _) hf fun i h' f' _ hi hf' => ?_
  refine forUpM_sim (fun h' f' => MatIs h q f' h') _ _ h' f' hi.le hf' fun j h' f' _ hj hf' => ?_
  rw [rd_self iq hf' (by omega) (by omega)]
  exact wr_self iq hf' (by omega) (by omega) _

theorem MatIs.congr {h h' : Mem K} {m : MatRef} {f g : Nat → Nat → K} (hf : MatIs h m f h') (e : ∀ i j, i < m.rows → j < m.cols → f i j = g i j) : MatIs h m g h' :=
  ⟨hf.1, fun i j hi hj => (hf.2.1 i j hi hj).trans (e i j hi hj), hf.2.2⟩

/-- The weight of a null pointer is one. -/
def wAt (h : Mem K) (w : Option VecRef) (k : Nat) : K := match w with
  | some v => velem h v k
  | none => 1

theorem wt_weights (h : Mem K) (w : Option VecRef) (k : Nat) : LE.wt (weights h w) k = wAt h w k := by cases w <;> rfl

/-- C200, `zMatQuad`: for matching sizes `q = a diag(w) a^T`, nothing else is changed; other sizes are refused. -/
theorem zMatQuad_checked (h : Mem K) (a q : MatRef) (w : Option VecRef) (ia : a.In h) (iq : q.In h) (iw : ∀ v ∈ w, v.In h) (s : a.Disj q) (sw : ∀ v ∈ w, q.VDisj v) :
    Guarded h (zMatQuad a w q h) ((∀ v ∈ w, a.cols = v.size) ∧ a.rows = q.rows ∧ q.rows = q.cols)
      (MatIs h q fun i j => ∑ k ∈ range a.cols, wAt h w k * elem h a i k * elem h a j k) := by
  unfold zMatQuad
  constructor
  · rintro ⟨g1, g2, g3⟩
    rw [if_neg (by push Not; exact g1), if_neg (by omega), if_neg (by omega)]
    obtain ⟨h1, e1, w1⟩ := zRawMatZero_correct h q.buf q.colcap q.rows q.cols iq.2.1 iq.matIn
    obtain ⟨h2, e2, w2⟩ := quadAccMem_spec iq (matIs_of w1) a.rows a.cols (fun i k => a.at i k) (fun i k => elem h a i k) w g2 g3
      (fun h' f' hf' i k hi hk => rd_other ia iq s hf' hi hk) (fun v hv => ⟨iw v hv, sw v hv, g1 v hv⟩)
    obtain ⟨h3, e3, w3⟩ := quadCopyMem_spec iq w2 a.rows g2 g3
    refine ⟨h3, ?_, w3.congr fun i j hi hj => ?_⟩
    · rw [e1]
      simp only [Res.bind]
      rw [e2]
      simp only [Res.bind]
      rw [e3]
    · have := LE.zMatQuadNC_spec a.rows a.cols (fun i k => elem h a i k) (weights h w) i j (by omega) (by omega)
      simp only [wt_weights] at this
      exact this
  · intro hn
    by_cases c1 : ∃ v ∈ w, a.cols ≠ v.size
    · rw [if_pos c1]
    rw [if_neg c1]
    push Not at c1
    by_cases c2 : a.rows ≠ q.rows
    · rw [if_pos c2]
    rw [if_neg c2, if_pos (by intro c3; exact hn ⟨c1, by omega, c3⟩)]

/-- C200, `zMatTQuad`: for matching sizes `q = a^T diag(w) a`, nothing else is changed; other sizes are refused. -/
theorem zMatTQuad_checked (h : Mem K) (a q : MatRef) (w : Option VecRef) (ia : a.In h) (iq : q.In h) (iw : ∀ v ∈ w, v.In h) (s : a.Disj q) (sw : ∀ v ∈ w, q.VDisj v) :
    Guarded h (zMatTQuad a w q h) ((∀ v ∈ w, a.rows = v.size) ∧ a.cols = q.rows ∧ q.rows = q.cols)
      (MatIs h q fun i j => ∑ k ∈ range a.rows, wAt h w k * elem h a k i * elem h a k j) := by
  unfold zMatTQuad
  constructor
  · rintro ⟨g1, g2, g3⟩
    rw [if_neg (by push Not; exact g1), if_neg (by omega), if_neg (by omega)]
    obtain ⟨h1, e1, w1⟩ := zRawMatZero_correct h q.buf q.colcap q.rows q.cols iq.2.1 iq.matIn
    obtain ⟨h2, e2, w2⟩ := quadAccMem_spec iq (matIs_of w1) a.cols a.rows (fun i k => a.at k i) (fun i k => elem h a k i) w g2 g3
      (fun h' f' hf' i k hi hk => rd_other ia iq s hf' hk hi) (fun v hv => ⟨iw v hv, sw v hv, g1 v hv⟩)
    obtain ⟨h3, e3, w3⟩ := quadCopyMem_spec iq w2 a.cols g2 g3
    refine ⟨h3, ?_, w3.congr fun i j hi hj => ?_⟩
    · rw [e1]
      simp only [Res.bind]
      rw [e2]
      simp only [Res.bind]
      rw [e3]
    · have := LE.zMatTQuadNC_spec a.rows a.cols (fun i k => elem h a i k) (weights h w) i j (by omega) (by omega)
      simp only [wt_weights] at this
      exact this
  · intro hn
    by_cases c1 : ∃ v ∈ w, a.rows ≠ v.size
    · rw [if_pos c1]
    rw [if_neg c1]
    push Not at c1
    by_cases c2 : a.cols ≠ q.rows
    · rw [if_pos c2]
    rw [if_neg c2, if_pos (by intro c3; exact hn ⟨c1, by omega, c3⟩)]

theorem tripleMem_spec {a q m : MatRef} {h h1 : Mem K} {f : Nat → Nat → K} (iq : q.In h) (im : m.In h) (sq : q.Disj m) (hf : MatIs h m f h1) (r : Nat) (el : Nat → Nat → Nat) (e : Nat → Nat → K)
    (hqs : q.rows = q.cols) (hr : r ≤ m.rows) (hms : m.rows = m.cols)
    (hel : ∀ h' f', MatIs h m f' h' → ∀ i k, i < r → k < q.rows → h'.rd (el i k) = .ok (e i k)) :
    ∃ h', tripleMem r q.rows q.cols el q m h1 = .ok h' ∧ MatIs h m (forUp 0 q.rows (fun i m => forUp 0 r (fun j m =>
      forUp 0 r (fun k m => set2 m k j (m k j + e k i * forUp 0 q.rows (fun k y => y + elem h q i k * e j k) 0)) m) m) f) h' := by
  unfold tripleMem
  refine forUpM_sim (fun h' f' => MatIs h m f' h') _ _ h1 f (Nat.zero_le _) hf fun i h' f' _ hi hf' => ?_
  refine forUpM_sim (fun h' f' => MatIs h m f' h') _ _ h' f' (Nat.zero_le _) hf' fun j h' f' _ hj hf' => ?_
  obtain ⟨y, ey, hy⟩ := forUpM_sim (fun y t => y = t) (fun k y => (h'.rd (q.at i k)).bind fun x => (h'.rd (el j k)).bind fun z => .ok (y + x * z))
    (fun k y => y + elem h q i k * e j k) (0 : K) (0 : K) (Nat.zero_le q.cols) rfl (by
      rintro k y _ - hk rfl
      beta_reduce
      rw [rd_other iq im sq hf' hi hk, hel h' f' hf' j k hj (by omega)]
      exact ⟨_, rfl, rfl⟩)
  rw [ey]
  simp only [Res.bind]
  rw [hy, ← hqs]
  refine forUpM_sim (fun h' f' => MatIs h m f' h') _ _ h' f' (Nat.zero_le _) hf' fun k h' f' _ hk hf' => ?_
  rw [hel h' f' hf' k i hk hi]
  exact addElem_spec im hf' (by omega) (by omega) _

/-- C200, `zMulMatMatMatT` with a destination of the right size: `m = a q a^T`. -/
theorem zMulMatMatMatT_partial (h : Mem K) (a q m : MatRef) (ia : a.In h) (iq : q.In h) (im : m.In h) (sa : a.Disj m) (sq : q.Disj m) (hm : a.rows = m.rows) :
    Guarded h (zMulMatMatMatT a q m h) (q.rows = q.cols ∧ m.rows = m.cols ∧ a.cols = q.rows)
      (MatIs h m fun i j => ∑ k ∈ range q.rows, ∑ l ∈ range q.rows, elem h a i k * elem h q k l * elem h a j l) := by
  unfold zMulMatMatMatT
  constructor
  · rintro ⟨g1, g2, g3⟩
    rw [if_neg (by omega), if_neg (by omega)]
    obtain ⟨h1, e1, w1⟩ := zRawMatZero_correct h m.buf m.colcap m.rows m.cols im.2.1 im.matIn
    obtain ⟨h2, e2, w2⟩ := tripleMem_spec (a := a) iq im sq (matIs_of w1) a.rows (fun i k => a.at i k) (fun i k => elem h a i k) g1 (by omega) g2
      (fun h' f' hf' i k hi hk => rd_other ia im sa hf' hi (by omega))
    refine ⟨h2, ?_, w2.congr fun i j hi hj => ?_⟩
    · rw [e1]
      simp only [Res.bind]
      rw [e2]
    · exact LE.zMulMatMatMatTNC_spec a.rows q.rows (fun i k => elem h a i k) (fun i k => elem h q i k) i j (by omega) (by omega)
  · intro hn
    by_cases c1 : q.rows ≠ q.cols ∨ m.rows ≠ m.cols
    · rw [if_pos c1]
    rw [if_neg c1, if_pos (by intro c2; exact hn ⟨by omega, by omega, c2⟩)]

/-- C200, `zMulMatTMatMat` with a destination of the right size: `m = a^T q a`. -/
theorem zMulMatTMatMat_partial (h : Mem K) (a q m : MatRef) (ia : a.In h) (iq : q.In h) (im : m.In h) (sa : a.Disj m) (sq : q.Disj m) (hm : a.cols = m.rows) :
    Guarded h (zMulMatTMatMat a q m h) (q.rows = q.cols ∧ m.rows = m.cols ∧ a.rows = q.rows)
      (MatIs h m fun i j => ∑ k ∈ range q.rows, ∑ l ∈ range q.rows, elem h a k i * elem h q k l * elem h a l j) := by
  unfold zMulMatTMatMat
  constructor
  · rintro ⟨g1, g2, g3⟩
    rw [if_neg (by omega), if_neg (by omega)]
    obtain ⟨h1, e1, w1⟩ := zRawMatZero_correct h m.buf m.colcap m.rows m.cols im.2.1 im.matIn
    obtain ⟨h2, e2, w2⟩ := tripleMem_spec (a := a) iq im sq (matIs_of w1) a.cols (fun i k => a.at k i) (fun i k => elem h a k i) g1 (by omega) g2
      (fun h' f' hf' i k hi hk => rd_other ia im sa hf' (by omega) hi)
    refine ⟨h2, ?_, w2.congr fun i j hi hj => ?_⟩
    · rw [e1]
      simp only [Res.bind]
      rw [e2]
    · exact LE.zMulMatTMatMatNC_spec q.rows a.cols (fun i k => elem h a i k) (fun i k => elem h q i k) i j (by omega) (by omega)
  · intro hn
    by_cases c1 : q.rows ≠ q.cols ∨ m.rows ≠ m.cols
    · rw [if_pos c1]
    rw [if_neg c1, if_pos (by intro c2; exact hn ⟨by omega, by omega, c2⟩)]

/-- C200 is violated: a destination of another size is not refused.  A 2×1 matrix, a 1×1 matrix and a destination of 1×1 behind which a number of somebody else is stored:
success is reported and that number is overwritten, though it is no element of the destination. -/
theorem zMulMatMatMatT_size_violated :
    let h : Mem ℚ := ⟨8, fun i => if i = 0 then 1 else if i = 1 then 2 else if i = 2 then 3 else if i = 3 then 0 else 9⟩
    ∃ h', zMulMatMatMatT ⟨0, 2, 1, 2, 1⟩ ⟨2, 1, 1, 1, 1⟩ ⟨3, 1, 1, 1, 1⟩ h = .ok (h', true) ∧ h.val 4 = 9 ∧ h'.val 4 = 21 := ⟨_, rfl, by decide +kernel, by decide +kernel⟩

/-- C200 is violated: where the destination is the last thing in the memory it is undefined. -/
theorem zMulMatTMatMat_size_violated :
    zMulMatTMatMat ⟨0, 1, 2, 1, 2⟩ ⟨2, 1, 1, 1, 1⟩ ⟨3, 1, 1, 1, 1⟩ (⟨4, fun i => if i = 0 then 1 else if i = 1 then 2 else if i = 2 then 3 else 0⟩ : Mem ℚ) = .ub := by
  rfl

example : ∃ h' : Mem ℚ, zMatQuad ⟨0, 2, 1, 2, 1⟩ none ⟨2, 2, 2, 2, 2⟩ (⟨6, fun i => (i : ℚ)⟩ : Mem ℚ) = .ok (h', true) :=
  (zMatQuad_checked (⟨6, fun i => (i : ℚ)⟩) ⟨0, 2, 1, 2, 1⟩ ⟨2, 2, 2, 2, 2⟩ none ⟨by decide, by decide, by decide⟩ ⟨by decide, by decide, by decide⟩ (by simp) (Or.inl (by decide)) (by simp)).1 ⟨by simp, rfl, rfl⟩ |>.imp fun _ h => h.1

end Zm.Mat
