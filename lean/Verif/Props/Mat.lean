import Verif.Props.RawMat
import Mathlib.Logic.Function.Iterate
import Mathlib.Combinatorics.Pigeonhole
import Mathlib.Data.Finset.Range
import Mathlib.Data.Finset.Lattice.Fold

/-! # C09, C12, C13 and the checked matrix functions of C07 -/

namespace Zm.RawMat
open Zm RawVec
variable {K : Type*}

/-! ## Cycle-leader permutation (helper lemmas) -/

section cycle
variable (σ : Nat → Nat) (N : Nat) (hmap : ∀ k, k < N → σ k < N)
  (hinj : ∀ a b, a < N → b < N → σ a = σ b → a = b)

include hmap in
theorem iter_lt {k : Nat} (hk : k < N) (n : Nat) : σ^[n] k < N := by
  induction n with
  | zero => simpa
  | succ n ih => rw [Function.iterate_succ_apply']; exact hmap _ ih

include hmap hinj in
theorem iter_inj {a b : Nat} (ha : a < N) (hb : b < N) (n : Nat) (h : σ^[n] a = σ^[n] b) : a = b := by
  induction n with
  | zero => simpa using h
  | succ n ih =>
    rw [Function.iterate_succ_apply', Function.iterate_succ_apply'] at h
    exact ih (hinj _ _ (iter_lt σ N hmap ha n) (iter_lt σ N hmap hb n) h)

include hmap hinj in
theorem exists_period {i : Nat} (hi : i < N) : ∃ n, 0 < n ∧ n ≤ N ∧ σ^[n] i = i := by
  obtain ⟨a, ha, b, hb, hab, e⟩ := Finset.exists_ne_map_eq_of_card_lt_of_maps_to (s := Finset.range (N+1))
    (t := Finset.range N) (f := fun n => σ^[n] i) (by simp)
    (fun n _ => by simp only [Finset.coe_range, Set.mem_Iio]; exact iter_lt σ N hmap hi n)
  simp only [Finset.mem_range] at ha hb
  wlog hlt : a < b generalizing a b
  · exact this b a hab.symm e.symm hb ha (by omega)
  refine ⟨b - a, by omega, by omega, ?_⟩
  have : σ^[a] (σ^[b-a] i) = σ^[a] i := by
    rw [← Function.iterate_add_apply, show a + (b-a) = b by omega]; exact e.symm
  exact iter_inj σ N hmap hinj (iter_lt σ N hmap hi _) hi a this

/-- Some power of `σ` takes `k` to a smaller index than `i`. -/
def Done (i k : Nat) : Prop := ∃ j n, j < i ∧ σ^[n] k = j

theorem iter_period {i p : Nat} (hp : σ^[p] i = i) (n : Nat) : σ^[n] i = σ^[n % p] i := by
  have : ∀ q, σ^[p * q] i = i := by
    intro q
    induction q with
    | zero => simp
    | succ q ih => rw [Nat.mul_succ, Function.iterate_add_apply, hp, ih]
  conv_lhs => rw [← Nat.mod_add_div n p, Function.iterate_add_apply, this]

include hmap hinj in
theorem back {i k n : Nat} (hk : k < N) (h : σ^[n] k = i) : ∃ m, k = σ^[m] i := by
  obtain ⟨p, hp, _, e⟩ := exists_period σ N hmap hinj hk
  refine ⟨n * p - n, ?_⟩
  rw [← h, ← Function.iterate_add_apply]
  have hle : n ≤ n * p := Nat.le_mul_of_pos_right n hp
  rw [show n * p - n + n = n * p by omega, iter_period σ e, Nat.mul_mod_left]
  rfl

/-- The body of the in-place permutation for an arbitrary index map. -/
def cycleBody (σ : Nat → Nat) (fuel mat i : Nat) (h : Mem K) : Res (Mem K) :=
  (whileM fuel (fun p => decide (p > i)) (fun p => .ok (σ p)) (σ i)).bind fun prev =>
  if prev ≠ i then .ok h
  else (h.rd (mat + i)).bind fun tmp =>
    (whileM fuel (fun (s : Nat × Nat × Mem K) => decide (s.2.1 ≠ i))
      (fun s => do
        let h ← s.2.2.wr (mat + s.1) (← s.2.2.rd (mat + s.2.1))
        return (s.2.1, σ s.2.1, h))
      (i, σ i, h)).bind fun s =>
    s.2.2.wr (mat + s.1) tmp

include hmap hinj in
theorem cycle_leader (h : Mem K) (mat fuel : Nat) (hin : mat + N ≤ h.size) (hf : N < fuel) :
    ∃ h', forUpM 0 N (cycleBody σ fuel mat) h = .ok h' ∧ Wrote h h' mat N (fun k => h.val (mat + σ k)) := by
  obtain ⟨h', hh, hsz, hdone, hnot, hout⟩ := forUpM_ok (lo := 0) (hi := N) (cycleBody σ fuel mat) h
    (fun i t => t.size = h.size ∧ (∀ k, k < N → Done σ i k → t.val (mat+k) = h.val (mat + σ k)) ∧
      (∀ k, k < N → ¬ Done σ i k → t.val (mat+k) = h.val (mat+k)) ∧
      (∀ a, a < mat ∨ mat + N ≤ a → t.val a = h.val a)) (Nat.zero_le _)
    ⟨rfl, by rintro k _ ⟨j, n, hj, _⟩; omega, by intros; rfl, by intros; rfl⟩
    (by
      rintro i t - hi ⟨hsz, hdone, hnot, hout⟩
      -- first loop
      have hex : ∃ n, 0 < n ∧ σ^[n] i ≤ i := by
        obtain ⟨n, hn, _, e⟩ := exists_period σ N hmap hinj hi
        exact ⟨n, hn, by omega⟩
      classical
      obtain ⟨n1, hn1, hmin⟩ : ∃ n, (0 < n ∧ σ^[n] i ≤ i) ∧ ∀ m, m < n → ¬ (0 < m ∧ σ^[m] i ≤ i) :=
        ⟨Nat.find hex, Nat.find_spec hex, fun m hm => Nat.find_min hex hm⟩
      have hn1N : n1 ≤ N := by
        obtain ⟨n, hn, hnN, e⟩ := exists_period σ N hmap hinj hi
        by_contra hcon
        exact hmin n (by omega) ⟨hn, by omega⟩
      obtain ⟨p, hp, hpe⟩ := whileM_ok (fun p => decide (p > i)) (fun p => .ok (σ p))
        (fun k p => p = σ^[k+1] i) (n1 - 1) (σ i) rfl
        (by
          intro k p hk hp
          subst hp
          refine ⟨?_, _, rfl, by rw [Function.iterate_succ_apply' σ (k+1)]⟩
          have := hmin (k+1) (by omega)
          simp only [gt_iff_lt, decide_eq_true_eq]
          by_contra hcon
          exact this ⟨by omega, by omega⟩)
        (by
          intro p hp
          rw [hp, show n1 - 1 + 1 = n1 by omega]
          simp only [gt_iff_lt, decide_eq_false_iff_not, not_lt]
          exact hn1.2) fuel (by omega)
      rw [show n1 - 1 + 1 = n1 by omega] at hpe
      by_cases hpi : p = i
      · -- `i` is the smallest index of its cycle
        have hper : σ^[n1] i = i := by rw [← hpe]; exact hpi
        have hge : ∀ m, i ≤ σ^[m] i := by
          intro m
          rw [iter_period σ hper m]
          rcases Nat.eq_zero_or_pos (m % n1) with h0 | h0
          · rw [h0]; simp
          · have := hmin (m % n1) (Nat.mod_lt _ hn1.1)
            by_contra hcon
            exact this ⟨h0, by omega⟩
        have hnd : ∀ m, ¬ Done σ i (σ^[m] i) := by
          rintro m ⟨j, n, hj, e⟩
          rw [← Function.iterate_add_apply] at e
          have := hge (n + m)
          omega
        have hne : ∀ a b, a < n1 → b < n1 → σ^[a] i = σ^[b] i → a = b := by
          intro a b ha hb e
          wlog hlt : a < b generalizing a b
          · rcases Nat.lt_trichotomy a b with h' | h' | h'
            · exact absurd h' hlt
            · exact h'
            · exact (this b a hb ha e.symm h').symm
          exfalso
          have : σ^[a] (σ^[b-a] i) = σ^[a] i := by
            rw [← Function.iterate_add_apply, show a + (b-a) = b by omega]; exact e.symm
          have := iter_inj σ N hmap hinj (iter_lt σ N hmap hi _) hi a this
          exact hmin (b-a) (by omega) ⟨by omega, by omega⟩
        have hlt := fun m => iter_lt σ N hmap hi m
        obtain ⟨s, hs, s1, s2, s3, s4, s5⟩ := whileM_ok
          (fun (s : Nat × Nat × Mem K) => decide (s.2.1 ≠ i))
          (fun s => do
            let h ← s.2.2.wr (mat + s.1) (← s.2.2.rd (mat + s.2.1))
            return (s.2.1, σ s.2.1, h))
          (fun k s => s.1 = σ^[k] i ∧ s.2.1 = σ^[k+1] i ∧ s.2.2.size = t.size ∧
            (∀ m, m < k → s.2.2.val (mat + σ^[m] i) = t.val (mat + σ^[m+1] i)) ∧
            (∀ a, (∀ m, m < k → a ≠ mat + σ^[m] i) → s.2.2.val a = t.val a)) (n1 - 1) (i, σ i, t)
          ⟨rfl, rfl, rfl, by simp, by simp⟩
          (by
            rintro k ⟨x, y, u⟩ hk ⟨e1, e2, e3, e4, e5⟩
            simp only at e1 e2 e3 e4 e5
            subst e1 e2
            refine ⟨?_, (σ^[k+1] i, σ^[k+2] i,
              ⟨u.size, fun j => if j = mat + σ^[k] i then u.val (mat + σ^[k+1] i) else u.val j⟩), ?_, rfl, rfl, e3, ?_, ?_⟩
            · simp only [ne_eq, decide_eq_true_eq]
              intro e
              have := hne (k+1) 0 (by omega) (by omega) (by simpa using e)
              omega
            · have l1 := hlt k
              have l2 := hlt (k+1)
              simp only [Mem.rd_ok u (show mat + σ^[k+1] i < u.size by omega), Res.bind_ok,
                Mem.wr_ok u _ (show mat + σ^[k] i < u.size by omega), Res.pure_eq,
                Function.iterate_succ_apply' σ (k+1)]
            · intro m hm
              by_cases hmk : m = k
              · subst hmk
                simp only [if_true]
                rw [e5]
                intro m' hm' e
                have := hne (m+1) m' (by omega) (by omega) (by omega)
                omega
              · simp only
                rw [if_neg, e4 m (by omega)]
                intro e
                exact hmk (hne m k (by omega) (by omega) (by omega))
            · intro a ha
              simp only
              rw [if_neg (ha k (by omega)), e5 a (fun m hm => ha m (by omega))])
          (by
            rintro ⟨x, y, u⟩ ⟨e1, e2, -⟩
            simp only at e2
            simp only [ne_eq, decide_eq_false_iff_not, not_not, e2]
            rw [show n1 - 1 + 1 = n1 by omega]; exact hper) fuel (by omega)
        refine ⟨⟨s.2.2.size, fun j => if j = mat + s.1 then t.val (mat + i) else s.2.2.val j⟩, ?_, ?_, ?_, ?_, ?_⟩
        · unfold cycleBody
          have l1 := hlt (n1 - 1)
          simp only [hp, Res.bind, hpi, ne_eq, not_true_eq_false, if_false,
            Mem.rd_ok t (show mat + i < t.size by omega)]
          simp only [ne_eq] at hs
          rw [hs]
          simp only
          rw [Mem.wr_ok _ _ (show mat + s.1 < s.2.2.size by rw [s1, s3]; omega)]
        · exact s3.trans hsz
        · intro k hk hd
          obtain ⟨j, n, hj, e⟩ := hd
          by_cases hdi : Done σ i k
          · -- in an earlier cycle
            have hk' : ∀ m, mat + k ≠ mat + σ^[m] i := by
              intro m e'
              have : k = σ^[m] i := by omega
              exact hnd m (this ▸ hdi)
            simp only
            rw [if_neg (by rw [s1]; exact hk' _), s5 _ (fun m _ => hk' m), hdone k hk hdi]
          · have hji : j = i := by
              by_contra hji
              exact hdi ⟨j, n, by omega, e⟩
            subst hji
            obtain ⟨m, hm⟩ := back σ N hmap hinj hk e
            rw [iter_period σ hper m] at hm
            obtain ⟨q, hq, hqe⟩ : ∃ q, q < n1 ∧ k = σ^[q] j := ⟨_, Nat.mod_lt _ hn1.1, hm⟩
            subst hqe
            simp only
            have hnext : σ (σ^[q] j) = σ^[q+1] j := (Function.iterate_succ_apply' σ q j).symm
            by_cases hlast : q = n1 - 1
            · subst hlast
              rw [if_pos (by rw [s1]), hnext, show n1 - 1 + 1 = n1 by omega, hper, hnot j hi]
              simpa using hnd 0
            · rw [if_neg, s4 q (by omega), hnext, hnot _ (hlt _) (hnd _)]
              rw [s1]
              intro e'
              exact hlast (hne q (n1-1) hq (by omega) (by omega))
        · intro k hk hd
          have hdi : ¬ Done σ i k := fun ⟨j, n, hj, e⟩ => hd ⟨j, n, by omega, e⟩
          have hk' : ∀ m, mat + k ≠ mat + σ^[m] i := by
            intro m e'
            have hkm : k = σ^[m] i := by omega
            obtain ⟨m', hm'⟩ := back σ N hmap hinj hi hkm.symm
            exact hd ⟨i, m', by omega, hm'.symm⟩
          simp only
          rw [if_neg (by rw [s1]; exact hk' _), s5 _ (fun m _ => hk' m), hnot k hk hdi]
        · intro a ha
          have hk' : ∀ m, a ≠ mat + σ^[m] i := by
            intro m e'
            have := hlt m
            omega
          simp only
          rw [if_neg (by rw [s1]; exact hk' _), s5 _ (fun m _ => hk' m), hout a ha]
      · -- `i` belongs to a cycle that has been processed
        have hlt' : p < i := by
          have := hn1.2
          omega
        have hiff : ∀ k, Done σ (i+1) k ↔ Done σ i k := by
          intro k
          constructor
          · rintro ⟨j, n, hj, e⟩
            by_cases hji : j = i
            · subst hji
              refine ⟨p, n1 + n, hlt', ?_⟩
              rw [Function.iterate_add_apply, e, hpe]
            · exact ⟨j, n, by omega, e⟩
          · rintro ⟨j, n, hj, e⟩; exact ⟨j, n, by omega, e⟩
        refine ⟨t, ?_, hsz, fun k hk hd => hdone k hk ((hiff k).1 hd), fun k hk hd => hnot k hk (fun h => hd ((hiff k).2 h)),
          hout⟩
        unfold cycleBody
        simp [hp, Res.bind, hpi])
  refine ⟨h', hh, hsz, fun k hk => hdone k hk ⟨k, 0, hk, rfl⟩, hout⟩
end cycle

/-! ## C09 -/

theorem prev_lt {r c k : Nat} (hk : k < r * c) : _zRawMatTDRCPrevIndex k r c < r * c := by
  have hr : 0 < r := Nat.pos_of_ne_zero (by rintro rfl; simp at hk)
  have h1 : k % r < r := Nat.mod_lt _ hr
  have h2 : k / r < c := Nat.div_lt_of_lt_mul hk
  unfold _zRawMatTDRCPrevIndex
  calc k % r * c + k / r < k % r * c + c := by omega
    _ = (k % r + 1) * c := by rw [Nat.add_mul]; omega
    _ ≤ r * c := Nat.mul_le_mul_right _ h1

theorem prev_inj {r c a b : Nat} (ha : a < r * c) (hb : b < r * c)
    (h : _zRawMatTDRCPrevIndex a r c = _zRawMatTDRCPrevIndex b r c) : a = b := by
  have h2 : ∀ k, k < r * c → k / r < c := fun k hk => Nat.div_lt_of_lt_mul hk
  have := cell_inj (h2 a ha) (h2 b hb) h
  rw [← Nat.mod_add_div a r, ← Nat.mod_add_div b r, this.1, this.2]

/-- **C09** `zRawMatTDRC` terminates and turns the row-major `rowcap × colcap` buffer into its transpose in place:
element `(i,j)` of the `colcap × rowcap` result is element `(j,i)` of the input; memory outside is untouched.
`fuel` bounds the iterations of each inner `while`; any value above the number of elements is enough. -/
theorem zRawMatTDRC_correct (h : Mem K) (mat rowcap colcap fuel : Nat) (hin : mat + rowcap * colcap ≤ h.size)
    (hf : rowcap * colcap < fuel) :
    ∃ h', zRawMatTDRC fuel mat rowcap colcap h = .ok h' ∧
      WroteMat h h' mat rowcap colcap rowcap (fun i j => h.val (mat + j*colcap + i)) := by
  by_cases hsmall : rowcap * colcap ≤ 1
  · refine ⟨h, by simp [zRawMatTDRC, hsmall], rfl, ?_, by intros; rfl⟩
    intro i j hi hj
    have hr : rowcap = 1 ∧ colcap = 1 := by
      have h1 : 0 < rowcap := by omega
      have h2 : 0 < colcap := by omega
      constructor
      · by_contra hne
        have : 2 * 1 ≤ rowcap * colcap := Nat.mul_le_mul (by omega) h2
        omega
      · by_contra hne
        have : 1 * 2 ≤ rowcap * colcap := Nat.mul_le_mul h1 (by omega)
        omega
    obtain ⟨rfl, rfl⟩ := hr
    have : i = 0 := by omega
    have : j = 0 := by omega
    subst_vars; rfl
  · obtain ⟨h', hh, hsz, hw, ho⟩ := cycle_leader (fun k => _zRawMatTDRCPrevIndex k rowcap colcap) (rowcap * colcap)
      (fun k hk => prev_lt hk) (fun a b ha hb e => prev_inj ha hb e) h mat fuel hin hf
    refine ⟨h', ?_, hsz, ?_, ?_⟩
    · unfold zRawMatTDRC; rw [if_neg hsmall]; exact hh
    · intro i j hi hj
      have hlt : i*rowcap + j < rowcap * colcap := by
        calc i*rowcap + j < i*rowcap + rowcap := by omega
          _ = (i+1)*rowcap := by rw [Nat.add_mul]; omega
          _ ≤ colcap * rowcap := Nat.mul_le_mul_right _ hi
          _ = rowcap * colcap := Nat.mul_comm _ _
      rw [Nat.add_assoc, hw _ hlt]
      have e : _zRawMatTDRCPrevIndex (i*rowcap + j) rowcap colcap = j*colcap + i := by
        unfold _zRawMatTDRCPrevIndex
        rw [Nat.add_comm (i*rowcap), Nat.mul_comm i, Nat.add_mul_mod_self_left, Nat.mod_eq_of_lt hj,
          Nat.add_mul_div_left _ _ (by omega), Nat.div_eq_of_lt hj]
        simp
      beta_reduce
      rw [e, Nat.add_assoc]
    · intro a ha
      refine ho a ?_
      by_contra hcon
      have hr : 0 < rowcap := Nat.pos_of_ne_zero (by rintro rfl; simp at hsmall)
      have hlt : a - mat < rowcap * colcap := by omega
      refine ha ((a - mat)/rowcap) ((a - mat) % rowcap) (Nat.div_lt_of_lt_mul hlt) (Nat.mod_lt _ hr) ?_
      have := Nat.mod_add_div (a - mat) rowcap
      rw [Nat.mul_comm] at this
      omega

/-- Transposing twice (with the capacities exchanged) restores the buffer. -/
theorem zRawMatTDRC_involutive (h : Mem K) (mat rowcap colcap fuel : Nat) (hin : mat + rowcap * colcap ≤ h.size)
    (hf : rowcap * colcap < fuel) :
    ∃ h1 h2, zRawMatTDRC fuel mat rowcap colcap h = .ok h1 ∧ zRawMatTDRC fuel mat colcap rowcap h1 = .ok h2 ∧
      ∀ i j, i < rowcap → j < colcap → h2.val (mat + i*colcap + j) = h.val (mat + i*colcap + j) := by
  obtain ⟨h1, e1, w1⟩ := zRawMatTDRC_correct h mat rowcap colcap fuel hin hf
  obtain ⟨h2, e2, w2⟩ := zRawMatTDRC_correct h1 mat colcap rowcap fuel
    (by rw [w1.1, Nat.mul_comm]; exact hin) (by rw [Nat.mul_comm]; exact hf)
  exact ⟨h1, h2, e1, e2, fun i j hi hj => by
    rw [w2.2.1 i j hi hj]; beta_reduce; rw [w1.2.1 j i hj hi]⟩

/-- Concrete case: the 2×3 buffer `1 2 3 4 5 6` becomes `1 4 2 5 3 6`. -/
example : ∃ h', zRawMatTDRC (K := ℤ) 7 0 2 3 (Mem.ofList [1,2,3,4,5,6]) = .ok h' ∧ h'.toList = [1,4,2,5,3,6] :=
  ⟨_, rfl, by decide +kernel⟩

end Zm.RawMat

namespace Zm.Mat
open Zm RawVec RawMat Vec
variable {K : Type*}

/-! ## C07 for matrices, C08-like position checks, C12, C13 -/

/-- The matrix's elements lie inside memory and its sizes do not exceed its capacities. -/
def MatRef.In (m : MatRef) (h : Mem K) : Prop :=
  m.rows ≤ m.rowcap ∧ m.cols ≤ m.colcap ∧ m.buf + m.rowcap * m.colcap ≤ h.size

theorem MatRef.In.matIn {m : MatRef} {h : Mem K} (hm : m.In h) : MatIn h m.buf m.colcap m.rows m.cols := by
  obtain ⟨hr, hc, hs⟩ := hm
  intro i j hi hj
  have : (i+1) * m.colcap ≤ m.rowcap * m.colcap := Nat.mul_le_mul_right _ (by omega)
  rw [Nat.add_mul] at this
  omega

/-- The same object or no common cell. -/
def MatRef.Apart (a b : MatRef) : Prop :=
  (a.buf = b.buf ∧ a.colcap = b.colcap) ∨ a.buf + a.rowcap * a.colcap ≤ b.buf ∨ b.buf + b.rowcap * b.colcap ≤ a.buf

theorem sep_of_apart {a b : MatRef} {h : Mem K} (ha : a.In h) (hb : b.In h)
    (hd : a.buf + a.rowcap * a.colcap ≤ b.buf ∨ b.buf + b.rowcap * b.colcap ≤ a.buf) :
    Sep a.buf a.colcap a.rows a.cols b.buf b.colcap b.rows b.cols := by
  intro i j hi hj i' j' hi' hj'
  obtain ⟨hr, hc, -⟩ := ha
  obtain ⟨hr', hc', -⟩ := hb
  have h1 : (i+1) * a.colcap ≤ a.rowcap * a.colcap := Nat.mul_le_mul_right _ (by omega)
  have h2 : (i'+1) * b.colcap ≤ b.rowcap * b.colcap := Nat.mul_le_mul_right _ (by omega)
  rw [Nat.add_mul] at h1 h2
  omega

theorem compat_of_apart {a b : MatRef} {h : Mem K} (ha : a.In h) (hb : b.In h) (hd : a.Apart b)
    (hr : a.rows = b.rows) (hc : a.cols = b.cols) : Compat a.buf a.colcap b.buf b.colcap b.rows b.cols := by
  rcases hd with hd | hd
  · exact Or.inl hd
  · right
    have := sep_of_apart ha hb hd
    rwa [hr, hc] at this

/-- Outcome of a checked matrix operation. -/
def CheckedMat (h : Mem K) (out : Res (Mem K × Bool)) (good : Prop) (m : MatRef) (f : Nat → Nat → K) : Prop :=
  (good → ∃ h', out = .ok (h', true) ∧ WroteMat h h' m.buf m.colcap m.rows m.cols f) ∧ (¬ good → out = .ok (h, false))

/-- **C07** `zMatAdd` succeeds exactly when the sizes agree; otherwise memory is unchanged. -/
theorem zMatAdd_checked [Add K] (h : Mem K) (m1 m2 m : MatRef) (i1 : m1.In h) (i2 : m2.In h) (im : m.In h)
    (a1 : m1.Apart m) (a2 : m2.Apart m) :
    CheckedMat h (zMatAdd m1 m2 m h) ((m1.rows = m2.rows ∧ m1.cols = m2.cols) ∧ m1.rows = m.rows ∧ m1.cols = m.cols) m
      (fun i j => h.val (m1.buf + i*m1.colcap + j) + h.val (m2.buf + i*m2.colcap + j)) := by
  constructor
  · rintro ⟨⟨r12, c12⟩, r1, c1⟩
    have j1 := i1.matIn
    have j2 := i2.matIn
    rw [r1, c1] at j1
    rw [← r12, ← c12, r1, c1] at j2
    obtain ⟨h', e, w⟩ := zRawMatAdd_correct h m1.buf m1.colcap m2.buf m2.colcap m.buf m.colcap m.rows m.cols im.2.1
      j1 j2 im.matIn (compat_of_apart i1 im a1 r1 c1) (compat_of_apart i2 im a2 (by omega) (by omega))
    refine ⟨h', ?_, w⟩
    unfold zMatAdd zMatSizeEqual
    rw [if_neg (by simp [← r12, ← c12, r1, c1]), e]; rfl
  · intro hn
    unfold zMatAdd zMatSizeEqual
    rw [if_pos]
    simp only [Bool.or_eq_true, Bool.not_eq_true', Bool.and_eq_false_iff, beq_eq_false_iff_ne]
    tauto

/-- **C07** `zMatSub`. -/
theorem zMatSub_checked [Sub K] (h : Mem K) (m1 m2 m : MatRef) (i1 : m1.In h) (i2 : m2.In h) (im : m.In h)
    (a1 : m1.Apart m) (a2 : m2.Apart m) :
    CheckedMat h (zMatSub m1 m2 m h) ((m1.rows = m2.rows ∧ m1.cols = m2.cols) ∧ m1.rows = m.rows ∧ m1.cols = m.cols) m
      (fun i j => h.val (m1.buf + i*m1.colcap + j) - h.val (m2.buf + i*m2.colcap + j)) := by
  constructor
  · rintro ⟨⟨r12, c12⟩, r1, c1⟩
    have j1 := i1.matIn
    have j2 := i2.matIn
    rw [r1, c1] at j1
    rw [← r12, ← c12, r1, c1] at j2
    obtain ⟨h', e, w⟩ := zRawMatSub_correct h m1.buf m1.colcap m2.buf m2.colcap m.buf m.colcap m.rows m.cols im.2.1
      j1 j2 im.matIn (compat_of_apart i1 im a1 r1 c1) (compat_of_apart i2 im a2 (by omega) (by omega))
    refine ⟨h', ?_, w⟩
    unfold zMatSub zMatSizeEqual
    rw [if_neg (by simp [← r12, ← c12, r1, c1]), e]; rfl
  · intro hn
    unfold zMatSub zMatSizeEqual
    rw [if_pos]
    simp only [Bool.or_eq_true, Bool.not_eq_true', Bool.and_eq_false_iff, beq_eq_false_iff_ne]
    tauto

/-- **C07** `zMatDiv` also refuses a tiny divisor. -/
theorem zMatDiv_checked [Field K] [LinearOrder K] (tol k : K) (h : Mem K) (m1 m : MatRef) (i1 : m1.In h) (im : m.In h)
    (a1 : m1.Apart m) :
    CheckedMat h (zMatDiv tol m1 k m h) ((m1.rows = m.rows ∧ m1.cols = m.cols) ∧ ¬ |k| ≤ tol) m
      (fun i j => h.val (m1.buf + i*m1.colcap + j) / k) := by
  constructor
  · rintro ⟨⟨r1, c1⟩, hk⟩
    have j1 := i1.matIn
    rw [r1, c1] at j1
    obtain ⟨h', e, w⟩ := zRawMatDiv_correct h m1.buf m1.colcap m.buf m.colcap m.rows m.cols im.2.1
      j1 im.matIn (compat_of_apart i1 im a1 r1 c1) k
    refine ⟨h', ?_, w⟩
    unfold zMatDiv zMatSizeEqual
    rw [if_neg (by simp [r1, c1]), if_neg (by simp [Misc.zIsTol, hk]), e]; rfl
  · intro hn
    unfold zMatDiv zMatSizeEqual
    by_cases hs : m1.rows = m.rows ∧ m1.cols = m.cols
    · have : |k| ≤ tol := by tauto
      rw [if_neg (by simp [hs]), if_pos (by simp [Misc.zIsTol, this])]
    · rw [if_pos]
      simp only [Bool.not_eq_true', Bool.and_eq_false_iff, beq_eq_false_iff_ne]
      tauto

/-- **C10** checked sub-matrix read: refuses exactly when the block does not fit, otherwise copies exactly the block. -/
theorem zMatGet_checked (h : Mem K) (src : MatRef) (r c : Nat) (dest : MatRef) (i1 : src.In h) (im : dest.In h)
    (ha : src.buf + src.rowcap * src.colcap ≤ dest.buf ∨ dest.buf + dest.rowcap * dest.colcap ≤ src.buf) :
    CheckedMat h (zMatGet src r c dest h) (r + dest.rows ≤ src.rows ∧ c + dest.cols ≤ src.cols) dest
      (fun i j => h.val (src.buf + (r+i)*src.colcap + (c+j))) := by
  constructor
  · rintro ⟨hr, hc⟩
    obtain ⟨h', e, w⟩ := zRawMatGet_correct h src.buf src.colcap src.rows src.cols r c dest.buf dest.colcap dest.rows
      dest.cols (by omega) im.2.1 i1.matIn im.matIn (sep_of_apart i1 im ha)
    rw [Nat.min_eq_left (by omega), Nat.min_eq_left (by omega)] at w
    refine ⟨h', ?_, w⟩
    unfold zMatGet
    rw [if_neg (by omega), e]; rfl
  · intro hn
    unfold zMatGet
    rw [if_pos (by omega)]

/-- **C10** checked sub-matrix write: refuses exactly when the block does not fit, otherwise writes exactly the block. -/
theorem zMatPut_checked (h : Mem K) (dest : MatRef) (r c : Nat) (src : MatRef) (i1 : src.In h) (im : dest.In h)
    (ha : src.buf + src.rowcap * src.colcap ≤ dest.buf ∨ dest.buf + dest.rowcap * dest.colcap ≤ src.buf) :
    ((r + src.rows ≤ dest.rows ∧ c + src.cols ≤ dest.cols) →
      ∃ h', zMatPut dest r c src h = .ok (h', true) ∧
        WroteMat h h' (dest.buf + r*dest.colcap + c) dest.colcap src.rows src.cols
          (fun i j => h.val (src.buf + i*src.colcap + j))) ∧
    (¬ (r + src.rows ≤ dest.rows ∧ c + src.cols ≤ dest.cols) → zMatPut dest r c src h = .ok (h, false)) := by
  constructor
  · rintro ⟨hr, hc⟩
    obtain ⟨h', e, w⟩ := zRawMatPut_correct h dest.buf dest.colcap dest.rows dest.cols r c src.buf src.colcap src.rows
      src.cols (by omega) im.2.1 i1.matIn im.matIn (sep_of_apart i1 im ha)
    rw [Nat.min_eq_left (by omega), Nat.min_eq_left (by omega)] at w
    refine ⟨h', ?_, w⟩
    unfold zMatPut
    rw [if_neg (by omega), e]; rfl
  · intro hn
    unfold zMatPut
    rw [if_pos (by omega)]

/-- **C07/C11** checked matrix product. -/
theorem zMulMatMat_checked [CommRing K] (h : Mem K) (m1 m2 m : MatRef) (i1 : m1.In h) (i2 : m2.In h) (im : m.In h)
    (a1 : m1.buf + m1.rowcap * m1.colcap ≤ m.buf ∨ m.buf + m.rowcap * m.colcap ≤ m1.buf)
    (a2 : m2.buf + m2.rowcap * m2.colcap ≤ m.buf ∨ m.buf + m.rowcap * m.colcap ≤ m2.buf) :
    CheckedMat h (zMulMatMat m1 m2 m h) (m1.cols = m2.rows ∧ m1.rows = m.rows ∧ m2.cols = m.cols) m
      (fun i j => ∑ k ∈ Finset.range m1.cols, h.val (m1.buf + i*m1.colcap + k) * h.val (m2.buf + k*m2.colcap + j)) := by
  constructor
  · rintro ⟨e1, e2, e3⟩
    have j1 := i1.matIn
    have jm := im.matIn
    have s1 := sep_of_apart i1 im a1
    have s2 := sep_of_apart i2 im a2
    rw [← e2, ← e3] at jm s1 s2
    rw [e1] at j1 s1
    obtain ⟨h', e, w⟩ := zRawMulMatMat_correct h m1.buf m1.colcap m1.rows m2.buf m2.colcap m2.rows m2.cols m.buf m.colcap
      (by rw [e3]; exact im.2.1) j1 i2.matIn jm s1 s2
    rw [e2, e3, ← e1] at w
    refine ⟨h', ?_, w⟩
    unfold zMulMatMat
    rw [if_neg (by omega), e]; rfl
  · intro hn
    unfold zMulMatMat
    rw [if_pos (by omega)]

/-- **C09** `zMatTDRC` transposes a matrix object in place whatever its capacities: afterwards the object has the
exchanged sizes and its element `(i,j)` is the former element `(j,i)`. -/
theorem zMatTDRC_correct (h : Mem K) (m : MatRef) (hm : m.In h) (fuel : Nat) (hf : m.rowcap * m.colcap < fuel) :
    ∃ h' m', zMatTDRC fuel m h = .ok (h', m') ∧ m'.In h' ∧ m'.rows = m.cols ∧ m'.cols = m.rows ∧
      ∀ i j, i < m'.rows → j < m'.cols → h'.val (m'.buf + i*m'.colcap + j) = h.val (m.buf + j*m.colcap + i) := by
  obtain ⟨h', e, w⟩ := zRawMatTDRC_correct h m.buf m.rowcap m.colcap fuel hm.2.2 hf
  refine ⟨h', { m with rowcap := m.colcap, colcap := m.rowcap, rows := m.cols, cols := m.rows }, ?_, ?_, rfl, rfl, ?_⟩
  · simp [zMatTDRC, e, Res.bind]
  · refine ⟨hm.2.1, hm.1, ?_⟩
    simp only
    rw [w.1, Nat.mul_comm]; exact hm.2.2
  · intro i j hi hj
    simp only at hi hj ⊢
    have h1 := hm.1
    have h2 := hm.2.1
    exact w.2.1 i j (by omega) (by omega)

/-- Sum of the absolute values of row `i`. -/
def rowAbsSum [Ring K] [LinearOrder K] (h : Mem K) (m : MatRef) (i : Nat) : K :=
  ∑ j ∈ Finset.range m.cols, |h.val (m.buf + i*m.colcap + j)|

/-- **C12 is violated.** A 2×1 matrix stored with column capacity 2 (for example after a column resize): the
infinity norm read along the buffer is 5 although the row sums are 1 and 2. -/
theorem zMatInfNorm_wrong :
    ∃ (h : Mem ℤ) (m : MatRef), m.In h ∧ zMatInfNorm m h = .ok 5 ∧ m.rows = 2 ∧ rowAbsSum h m 0 = 1 ∧ rowAbsSum h m 1 = 2 :=
  ⟨Mem.ofList [1, 5, 2, 7], ⟨0, 2, 2, 2, 1⟩, by simp [MatRef.In, Mem.ofList], rfl, rfl, rfl, rfl⟩

/-- **C12, partial.** When the rows are stored contiguously (`colcap = cols`), `zMatInfNorm` returns the maximum of 0
and all row sums of absolute values.  Missing: column capacity larger than the column size, for which the code is wrong. -/
theorem zMatInfNorm_partial [Ring K] [LinearOrder K] (h : Mem K) (m : MatRef) (hm : m.In h) (hcap : m.colcap = m.cols) :
    ∃ x, zMatInfNorm m h = .ok x ∧ 0 ≤ x ∧ (∀ i, i < m.rows → rowAbsSum h m i ≤ x) ∧
      (x = 0 ∨ ∃ i, i < m.rows ∧ x = rowAbsSum h m i) := by
  have key : ∃ s, forUpM 0 m.rows (fun _ (s : K × Nat) => do
      let (rs, mp) ← forUpM 0 m.cols (fun _ (t : K × Nat) => do return (t.1 + |← h.rd t.2|, t.2 + 1)) (0, s.2)
      return (if rs > s.1 then rs else s.1, mp)) ((0 : K), m.buf) = .ok s ∧ (s.2 = m.buf + m.rows * m.cols ∧ 0 ≤ s.1 ∧
        (∀ i, i < m.rows → rowAbsSum h m i ≤ s.1) ∧ (s.1 = 0 ∨ ∃ i, i < m.rows ∧ s.1 = rowAbsSum h m i)) := by
    refine forUpM_ok _ _ (fun k (s : K × Nat) => s.2 = m.buf + k * m.cols ∧ 0 ≤ s.1 ∧ (∀ i, i < k → rowAbsSum h m i ≤ s.1) ∧
      (s.1 = 0 ∨ ∃ i, i < k ∧ s.1 = rowAbsSum h m i)) (Nat.zero_le _) ⟨by simp, le_refl _, by simp, Or.inl rfl⟩ ?_
    rintro k ⟨x, p⟩ - hk ⟨e1, e2, e3, e4⟩
    simp only at e1 e2 e3 e4
    subst e1
    obtain ⟨t, ht, t1, t2⟩ := forUpM_ok (lo := 0) (hi := m.cols)
      (fun _ (t : K × Nat) => do return (t.1 + |← h.rd t.2|, t.2 + 1)) (0, m.buf + k * m.cols)
      (fun j t => t.2 = m.buf + k * m.cols + j ∧ t.1 = ∑ j ∈ Finset.range j, |h.val (m.buf + k*m.colcap + j)|)
      (Nat.zero_le _) ⟨rfl, by simp⟩
      (by
        rintro j ⟨y, q⟩ - hj ⟨f1, f2⟩
        simp only at f1 f2
        subst f1 f2
        have := hm.matIn k j hk hj
        rw [hcap] at this
        refine ⟨_, by rw [Mem.rd_ok h this]; rfl, by simp only; omega, ?_⟩
        rw [Finset.sum_range_succ, hcap])
    refine ⟨(if t.1 > x then t.1 else x, t.2), ?_, ?_, ?_, ?_, ?_⟩
    · simp only [ht, Res.bind_ok]; rfl
    · simp only [t1]; rw [Nat.add_mul]; omega
    · simp only; split
      · exact le_of_lt (lt_of_le_of_lt e2 (by assumption))
      · exact e2
    · intro i hi
      simp only
      by_cases hik : i = k
      · subst hik
        rw [show rowAbsSum h m i = t.1 from t2.symm]
        split
        · exact le_refl _
        · exact not_lt.1 (by assumption)
      · have := e3 i (by omega)
        split
        · exact this.trans (le_of_lt (by assumption))
        · exact this
    · simp only
      split
      · exact Or.inr ⟨k, by omega, t2⟩
      · rcases e4 with e4 | ⟨i, hi, e4⟩
        · exact Or.inl e4
        · exact Or.inr ⟨i, by omega, e4⟩
  obtain ⟨s, hs, _, e2, e3, e4⟩ := key
  exact ⟨s.1, by unfold zMatInfNorm; rw [hs]; rfl, e2, e3, e4⟩

/-- **C07/C11** checked matrix-vector product. -/
theorem zMulMatVec_checked [CommRing K] (h : Mem K) (m : MatRef) (v1 v : VecRef) (im : m.In h)
    (iv1 : v1.buf + v1.size ≤ h.size) (iv : v.buf + v.size ≤ h.size)
    (s1 : VSep v1.buf v1.size v.buf v.size) (s2 : m.buf + m.rowcap * m.colcap ≤ v.buf ∨ v.buf + v.size ≤ m.buf) :
    ((m.cols = v1.size ∧ m.rows = v.size) → ∃ h', zMulMatVec m v1 v h = .ok (h', true) ∧
      Wrote h h' v.buf v.size (fun i => ∑ k ∈ Finset.range m.cols, h.val (m.buf + i*m.colcap + k) * h.val (v1.buf + k))) ∧
    (¬ (m.cols = v1.size ∧ m.rows = v.size) → zMulMatVec m v1 v h = .ok (h, false)) := by
  constructor
  · rintro ⟨e1, e2⟩
    rw [← e1] at iv1 s1
    rw [← e2] at iv s1
    obtain ⟨h', e, w⟩ := zRawMulMatVec_correct h m.buf m.colcap v1.buf m.rows m.cols v.buf im.matIn iv1 iv
      (by
        intro i j hi hj
        have h1 : (i+1) * m.colcap ≤ m.rowcap * m.colcap := Nat.mul_le_mul_right _ (by have := im.1; omega)
        rw [Nat.add_mul] at h1
        have := im.2.1
        omega) s1
    refine ⟨h', ?_, e2 ▸ w⟩
    unfold zMulMatVec
    rw [if_neg (by omega), e]; rfl
  · intro hn
    unfold zMulMatVec
    rw [if_pos (by omega)]

/-- **C13 is violated.** `zMulMatVecDRC` with a 1×2 matrix and a vector of size 2 (`v` has one element per column but
the product has size 1) returns a non-`NULL` result and overwrites the operand `[3,4]` by zeros. -/
theorem zMulMatVecDRC_clobbers :
    ∃ (h : Mem ℤ) (m : MatRef) (v : VecRef) (h' : Mem ℤ), m.In h ∧ v.buf + v.size ≤ h.size ∧
      ¬ (m.cols = v.size ∧ m.rows = v.size) ∧ zMulMatVecDRC m v 4 h = .ok (h', true) ∧
      [h.val v.buf, h.val (v.buf+1)] = [3, 4] ∧ [h'.val v.buf, h'.val (v.buf+1)] = [0, 0] :=
  ⟨Mem.ofList [1, 2, 3, 4, 9, 9], ⟨0, 1, 2, 1, 2⟩, ⟨2, 2⟩, _, by simp [MatRef.In, Mem.ofList], by simp [Mem.ofList],
    by simp, rfl, rfl, by decide +kernel⟩

/-- **C13, partial.** With a square matrix matching the vector, `zMulMatVecDRC` replaces `v` by the product (computed
from the original `v`) and leaves every cell outside `v` and outside the temporary unchanged. -/
theorem zMulMatVecDRC_partial [CommRing K] (h : Mem K) (m : MatRef) (v : VecRef) (tmp : Nat) (im : m.In h)
    (iv : v.buf + v.size ≤ h.size) (it : tmp + v.size ≤ h.size) (hm : m.cols = v.size) (hr : m.rows = v.size)
    (st : v.buf + v.size ≤ tmp ∨ tmp + v.size ≤ v.buf)
    (smt : m.buf + m.rowcap * m.colcap ≤ tmp ∨ tmp + v.size ≤ m.buf) :
    ∃ h', zMulMatVecDRC m v tmp h = .ok (h', true) ∧
      (∀ i, i < v.size → h'.val (v.buf + i) = ∑ k ∈ Finset.range v.size, h.val (m.buf + i*m.colcap + k) * h.val (v.buf + k)) ∧
      (∀ a, ¬ (v.buf ≤ a ∧ a < v.buf + v.size) → ¬ (tmp ≤ a ∧ a < tmp + v.size) → h'.val a = h.val a) := by
  obtain ⟨h1, e1, w1⟩ := zRawVecSetAll_correct h tmp v.size (by omega) 0
  have imat : ∀ i k, i < v.size → k < v.size → ¬ (tmp ≤ m.buf + i*m.colcap + k ∧ m.buf + i*m.colcap + k < tmp + v.size) := by
    intro i k hi hk
    have h1 : (i+1) * m.colcap ≤ m.rowcap * m.colcap := Nat.mul_le_mul_right _ (by have := im.1; omega)
    rw [Nat.add_mul] at h1
    have := im.2.1
    omega
  obtain ⟨h2, e2, w2⟩ := (zMulMatVec_checked h1 m v ⟨tmp, v.size⟩ (by
      refine ⟨im.1, im.2.1, ?_⟩; rw [w1.1]; exact im.2.2) (by rw [w1.1]; exact iv) (by rw [w1.1]; exact it)
      (by unfold VSep; simp only; omega) smt).1 ⟨hm, hr⟩
  obtain ⟨h3, e3, w3⟩ := zRawVecCopy_correct h2 tmp v.buf v.size (by rw [w2.1, w1.1]; exact it) (by rw [w2.1, w1.1]; exact iv)
    (by omega)
  refine ⟨h3, ?_, ?_, ?_⟩
  · unfold zMulMatVecDRC
    simp only [e1, Res.bind_ok, e2, e3, Res.pure_eq]
  · intro i hi
    rw [w3.2.1 i hi]; beta_reduce
    rw [w2.2.1 i hi]; beta_reduce
    rw [hm]
    refine Finset.sum_congr rfl fun k hk => ?_
    rw [Finset.mem_range] at hk
    have := imat i k hi hk
    rw [w1.2.2 _ (by omega), w1.2.2 _ (by omega)]
  · intro a ha ht
    rw [w3.2.2 a (by omega), w2.2.2 a (by simp only; omega), w1.2.2 a (by omega)]

/-- `zMatShift` on a matrix with at least as many columns as rows adds `shift` to the diagonal only. -/
theorem zMatShift_partial [CommRing K] (h : Mem K) (m : MatRef) (im : m.In h) (hsq : m.rows ≤ m.cols) (shift : K) :
    ∃ h', zMatShift m shift h = .ok h' ∧
      WroteMat h h' m.buf m.colcap m.rows m.cols
        (fun i j => h.val (m.buf + i*m.colcap + j) + if i = j then shift else 0) := by
  obtain ⟨h', hh, e0, e1, e2⟩ := forUpM_ok (lo := 0) (hi := m.rows) (fun i (h : Mem K) => do
      h.wr (m.buf + i*m.colcap + i) ((← h.rd (m.buf + i*m.colcap + i)) + shift)) h
    (fun k t => t.size = h.size ∧
      (∀ i j, i < m.rows → j < m.cols → t.val (m.buf + i*m.colcap + j) =
        h.val (m.buf + i*m.colcap + j) + if i = j ∧ i < k then shift else 0) ∧
      (∀ a, Outside m.buf m.colcap m.rows m.cols a → t.val a = h.val a))
    (Nat.zero_le _) ⟨rfl, by simp, by intros; rfl⟩
    (by
      rintro k t - hk ⟨e0, e1, e2⟩
      have hin := im.matIn k k hk (by omega)
      refine ⟨⟨t.size, fun j => if j = m.buf + k*m.colcap + k then t.val (m.buf + k*m.colcap + k) + shift else t.val j⟩,
        by rw [Mem.rd_ok t (by omega), Res.bind_ok, Mem.wr_ok t _ (by omega)], e0, ?_, ?_⟩
      · intro i j hi hj
        simp only
        by_cases hij : i = k ∧ j = k
        · obtain ⟨rfl, rfl⟩ := hij
          rw [if_pos rfl, e1 _ _ hi hj]; simp
        · rw [if_neg, e1 _ _ hi hj]
          · congr 1
            by_cases hd : i = j
            · subst hd
              have : i ≠ k := by tauto
              simp [show (i < k + 1) = (i < k) by rw [eq_iff_iff]; omega]
            · simp [hd]
          · intro e
            have hcc := im.2.1
            exact hij (cell_inj (cap := m.colcap) (by omega) (by omega) (by omega))
      · intro a ha
        simp only
        rw [if_neg (ha k k hk (by omega)), e2 a ha])
  refine ⟨h', hh, e0, ?_, e2⟩
  intro i j hi hj
  rw [e1 i j hi hj]
  simp [hi]

/-- `zMatShift` on a 2×1 matrix writes outside the matrix (here: outside its memory). -/
theorem zMatShift_tall_ub : zMatShift ⟨0, 2, 1, 2, 1⟩ 5 (Mem.ofList [1, 2] : Mem ℤ) = .ub := rfl

/-- The hypotheses of the checked-operation theorems are met by three 2×2 matrices in one block. -/
example : (⟨0,2,2,2,2⟩ : MatRef).In (Mem.ofList (List.replicate 12 (1:ℤ))) ∧
    (⟨4,2,2,2,2⟩ : MatRef).In (Mem.ofList (List.replicate 12 (1:ℤ))) ∧
    (⟨8,2,2,2,2⟩ : MatRef).In (Mem.ofList (List.replicate 12 (1:ℤ))) ∧
    (⟨0,2,2,2,2⟩ : MatRef).Apart ⟨8,2,2,2,2⟩ ∧ (⟨4,2,2,2,2⟩ : MatRef).Apart ⟨8,2,2,2,2⟩ := by
  simp [MatRef.In, MatRef.Apart, Mem.ofList]

end Zm.Mat
