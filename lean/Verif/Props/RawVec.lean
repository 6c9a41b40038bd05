import Verif.Model.RawVec
import Verif.Base.Tac
import Mathlib.Algebra.BigOperators.Group.Finset.Basic
import Mathlib.Algebra.BigOperators.Intervals
import Mathlib.Algebra.BigOperators.Field

/-! # C06, C07, C08: vector kernels, size-checked and index-checked vector functions -/

namespace Zm.RawVec
open Zm

variable {K : Type*}

/-! ## Specification -/

/-- A source at `q` may be combined with a destination at `p` over `n` cells by a forward loop: the destination
starts at or before the source (this includes `p = q`, i.e. an operand overwriting itself) or behind its end. -/
def Safe (p q n : Nat) : Prop := p ≤ q ∨ q + n ≤ p

/-- `m'` is `m` with cells `p..p+n-1` replaced by `f 0 .. f (n-1)` and nothing else changed. -/
def Wrote (m m' : Mem K) (p n : Nat) (f : Nat → K) : Prop :=
  m'.size = m.size ∧ (∀ i, i < n → m'.val (p+i) = f i) ∧
  (∀ a, a < p ∨ p + n ≤ a → m'.val a = m.val a)

/-! ## C06 -/

/-- General kernel theorem for one source. -/
theorem map1_wrote (op : K → K) (v1 v n : Nat) (m : Mem K) (h1 : v1 + n ≤ m.size) (h : v + n ≤ m.size)
    (hs : Safe v v1 n) : ∃ m', map1 op v1 v n m = .ok m' ∧ Wrote m m' v n (fun i => op (m.val (v1+i))) := by
  unfold map1
  rw [Int.toNat_natCast]
  obtain ⟨m', hm, hsz, hw, hf⟩ := forUpM_ok (lo := 0) (hi := n)
    (fun i (m : Mem K) => do m.wr (v+i) (op (← m.rd (v1+i)))) m
    (fun k (t : Mem K) => t.size = m.size ∧ (∀ i, i < k → t.val (v+i) = op (m.val (v1+i))) ∧
      (∀ a, a < v ∨ v + k ≤ a → t.val a = m.val a)) (Nat.zero_le _) ⟨rfl, by simp, by simp⟩
    (by
      rintro k t - hk ⟨hsz, hw, hf⟩
      have hr : t.val (v1+k) = m.val (v1+k) := hf _ (by unfold Safe at hs; omega)
      refine ⟨⟨t.size, fun j => if j = v+k then op (m.val (v1+k)) else t.val j⟩, ?_, hsz, ?_, ?_⟩
      · simp [Mem.rd_ok t (show v1+k < t.size by omega), Mem.wr_ok t _ (show v+k < t.size by omega), hr]
      · intro i hi
        by_cases hik : i = k
        · subst hik; simp
        · simp only; rw [if_neg (by omega), hw i (by omega)]
      · intro a ha
        simp only; rw [if_neg (by omega), hf a (by omega)])
  exact ⟨m', hm, hsz, hw, hf⟩

/-- General kernel theorem for two sources. -/
theorem map2_wrote (op : K → K → K) (v1 v2 v n : Nat) (m : Mem K) (h1 : v1 + n ≤ m.size) (h2 : v2 + n ≤ m.size)
    (h : v + n ≤ m.size) (hs1 : Safe v v1 n) (hs2 : Safe v v2 n) :
    ∃ m', map2 op v1 v2 v n m = .ok m' ∧ Wrote m m' v n (fun i => op (m.val (v1+i)) (m.val (v2+i))) := by
  unfold map2
  rw [Int.toNat_natCast]
  obtain ⟨m', hm, hsz, hw, hf⟩ := forUpM_ok (lo := 0) (hi := n)
    (fun i (m : Mem K) => do m.wr (v+i) (op (← m.rd (v1+i)) (← m.rd (v2+i)))) m
    (fun k (t : Mem K) => t.size = m.size ∧ (∀ i, i < k → t.val (v+i) = op (m.val (v1+i)) (m.val (v2+i))) ∧
      (∀ a, a < v ∨ v + k ≤ a → t.val a = m.val a)) (Nat.zero_le _) ⟨rfl, by simp, by simp⟩
    (by
      rintro k t - hk ⟨hsz, hw, hf⟩
      have hr1 : t.val (v1+k) = m.val (v1+k) := hf _ (by unfold Safe at hs1; omega)
      have hr2 : t.val (v2+k) = m.val (v2+k) := hf _ (by unfold Safe at hs2; omega)
      refine ⟨⟨t.size, fun j => if j = v+k then op (m.val (v1+k)) (m.val (v2+k)) else t.val j⟩, ?_, hsz, ?_, ?_⟩
      · simp [Mem.rd_ok t (show v1+k < t.size by omega), Mem.rd_ok t (show v2+k < t.size by omega),
          Mem.wr_ok t _ (show v+k < t.size by omega), hr1, hr2]
      · intro i hi
        by_cases hik : i = k
        · subst hik; simp
        · simp only; rw [if_neg (by omega), hw i (by omega)]
      · intro a ha
        simp only; rw [if_neg (by omega), hf a (by omega)])
  exact ⟨m', hm, hsz, hw, hf⟩

/-- General kernel theorem for three sources. -/
theorem map3_wrote (op : K → K → K → K) (v1 v2 v3 v n : Nat) (m : Mem K) (h1 : v1 + n ≤ m.size)
    (h2 : v2 + n ≤ m.size) (h3 : v3 + n ≤ m.size) (h : v + n ≤ m.size) (hs1 : Safe v v1 n) (hs2 : Safe v v2 n)
    (hs3 : Safe v v3 n) : ∃ m', map3 op v1 v2 v3 v n m = .ok m' ∧
      Wrote m m' v n (fun i => op (m.val (v1+i)) (m.val (v2+i)) (m.val (v3+i))) := by
  unfold map3
  rw [Int.toNat_natCast]
  obtain ⟨m', hm, hsz, hw, hf⟩ := forUpM_ok (lo := 0) (hi := n)
    (fun i (m : Mem K) => do m.wr (v+i) (op (← m.rd (v1+i)) (← m.rd (v2+i)) (← m.rd (v3+i)))) m
    (fun k (t : Mem K) => t.size = m.size ∧
      (∀ i, i < k → t.val (v+i) = op (m.val (v1+i)) (m.val (v2+i)) (m.val (v3+i))) ∧
      (∀ a, a < v ∨ v + k ≤ a → t.val a = m.val a)) (Nat.zero_le _) ⟨rfl, by simp, by simp⟩
    (by
      rintro k t - hk ⟨hsz, hw, hf⟩
      have hr1 : t.val (v1+k) = m.val (v1+k) := hf _ (by unfold Safe at hs1; omega)
      have hr2 : t.val (v2+k) = m.val (v2+k) := hf _ (by unfold Safe at hs2; omega)
      have hr3 : t.val (v3+k) = m.val (v3+k) := hf _ (by unfold Safe at hs3; omega)
      refine ⟨⟨t.size, fun j => if j = v+k then op (m.val (v1+k)) (m.val (v2+k)) (m.val (v3+k)) else t.val j⟩,
        ?_, hsz, ?_, ?_⟩
      · simp [Mem.rd_ok t (show v1+k < t.size by omega), Mem.rd_ok t (show v2+k < t.size by omega),
          Mem.rd_ok t (show v3+k < t.size by omega), Mem.wr_ok t _ (show v+k < t.size by omega), hr1, hr2, hr3]
      · intro i hi
        by_cases hik : i = k
        · subst hik; simp
        · simp only; rw [if_neg (by omega), hw i (by omega)]
      · intro a ha
        simp only; rw [if_neg (by omega), hf a (by omega)])
  exact ⟨m', hm, hsz, hw, hf⟩

section kernels
variable (m : Mem K) (v1 v2 v n : Nat) (h1 : v1 + n ≤ m.size) (h2 : v2 + n ≤ m.size) (h : v + n ≤ m.size)
  (hs1 : Safe v v1 n) (hs2 : Safe v v2 n)
include h h1 hs1

/-- **C06** negation kernel. -/
theorem zRawVecRev_correct [Neg K] :
    ∃ m', zRawVecRev v1 v n m = .ok m' ∧ Wrote m m' v n (fun i => -m.val (v1+i)) :=
  map1_wrote _ v1 v n m h1 h hs1
/-- **C06** scalar multiplication. -/
theorem zRawVecMul_correct [Mul K] (k : K) :
    ∃ m', zRawVecMul v1 k v n m = .ok m' ∧ Wrote m m' v n (fun i => m.val (v1+i) * k) :=
  map1_wrote _ v1 v n m h1 h hs1
/-- **C06** scalar division. -/
theorem zRawVecDiv_correct [Field K] (k : K) :
    ∃ m', zRawVecDiv v1 k v n m = .ok m' ∧ Wrote m m' v n (fun i => m.val (v1+i) / k) := by
  obtain ⟨m', hm, hw⟩ := zRawVecMul_correct m v1 v n h1 h hs1 (1/k)
  exact ⟨m', hm, by simpa [div_eq_mul_inv] using hw⟩
/-- **C06** shift by a scalar. -/
theorem zRawVecShift_correct [Add K] (s : K) :
    ∃ m', zRawVecShift v1 n s v m = .ok m' ∧ Wrote m m' v n (fun i => m.val (v1+i) + s) :=
  map1_wrote _ v1 v n m h1 h hs1
/-- **C06** uniform scaling. -/
theorem zRawVecScaleUniform_correct [Ring K] (lo hi : K) :
    ∃ m', zRawVecScaleUniform v1 lo hi v n m = .ok m' ∧ Wrote m m' v n (fun i => lo + m.val (v1+i) * (hi - lo)) :=
  map1_wrote _ v1 v n m h1 h hs1
include h2 hs2

/-- **C06** addition. -/
theorem zRawVecAdd_correct [Add K] :
    ∃ m', zRawVecAdd v1 v2 v n m = .ok m' ∧ Wrote m m' v n (fun i => m.val (v1+i) + m.val (v2+i)) :=
  map2_wrote _ v1 v2 v n m h1 h2 h hs1 hs2
/-- **C06** subtraction. -/
theorem zRawVecSub_correct [Sub K] :
    ∃ m', zRawVecSub v1 v2 v n m = .ok m' ∧ Wrote m m' v n (fun i => m.val (v1+i) - m.val (v2+i)) :=
  map2_wrote _ v1 v2 v n m h1 h2 h hs1 hs2
/-- **C06** element-wise product. -/
theorem zRawVecAmp_correct [Mul K] :
    ∃ m', zRawVecAmp v1 v2 v n m = .ok m' ∧ Wrote m m' v n (fun i => m.val (v1+i) * m.val (v2+i)) :=
  map2_wrote _ v1 v2 v n m h1 h2 h hs1 hs2
/-- **C06** element-wise quotient. -/
theorem zRawVecDem_correct [Div K] :
    ∃ m', zRawVecDem v1 v2 v n m = .ok m' ∧ Wrote m m' v n (fun i => m.val (v1+i) / m.val (v2+i)) :=
  map2_wrote _ v1 v2 v n m h1 h2 h hs1 hs2
/-- **C06** multiply-add. -/
theorem zRawVecCat_correct [Add K] [Mul K] (k : K) :
    ∃ m', zRawVecCat v1 k v2 v n m = .ok m' ∧ Wrote m m' v n (fun i => m.val (v1+i) + m.val (v2+i) * k) :=
  map2_wrote _ v1 v2 v n m h1 h2 h hs1 hs2
/-- **C06** interior division. -/
theorem zRawVecInterDiv_correct [Ring K] (r : K) :
    ∃ m', zRawVecInterDiv v1 v2 r v n m = .ok m' ∧
      Wrote m m' v n (fun i => m.val (v1+i) + r * (m.val (v2+i) - m.val (v1+i))) :=
  map2_wrote _ v1 v2 v n m h1 h2 h hs1 hs2
/-- **C06** midpoint. -/
theorem zRawVecMid_correct [Field K] :
    ∃ m', zRawVecMid v1 v2 v n m = .ok m' ∧ Wrote m m' v n (fun i => (1/2) * (m.val (v1+i) + m.val (v2+i))) :=
  map2_wrote _ v1 v2 v n m h1 h2 h hs1 hs2
/-- **C06** scaling between boundary vectors. -/
theorem zRawVecScale_correct [Ring K] (v3 : Nat) (h3 : v3 + n ≤ m.size) (hs3 : Safe v v3 n) :
    ∃ m', zRawVecScale v1 v2 v3 v n m = .ok m' ∧
      Wrote m m' v n (fun i => m.val (v2+i) + m.val (v1+i) * (m.val (v3+i) - m.val (v2+i))) :=
  map3_wrote _ v1 v2 v3 v n m h1 h2 h3 h hs1 hs2 hs3
end kernels

theorem safe_self (v n : Nat) : Safe v v n := Or.inl (Nat.le_refl _)

section direct
variable (m : Mem K) (v v2 n : Nat) (h : v + n ≤ m.size) (h2 : v2 + n ≤ m.size) (hs2 : Safe v v2 n)
include h

/-- **C06** in-place negation. -/
theorem zRawVecRevDRC_correct [Neg K] :
    ∃ m', zRawVecRevDRC v n m = .ok m' ∧ Wrote m m' v n (fun i => -m.val (v+i)) :=
  map1_wrote _ v v n m h h (safe_self v n)
/-- **C06** in-place scalar multiplication. -/
theorem zRawVecMulDRC_correct [Mul K] (k : K) :
    ∃ m', zRawVecMulDRC v k n m = .ok m' ∧ Wrote m m' v n (fun i => m.val (v+i) * k) :=
  map1_wrote _ v v n m h h (safe_self v n)
/-- **C06** in-place scalar division. -/
theorem zRawVecDivDRC_correct [Field K] (k : K) :
    ∃ m', zRawVecDivDRC v k n m = .ok m' ∧ Wrote m m' v n (fun i => m.val (v+i) / k) := by
  obtain ⟨m', hm, hw⟩ := zRawVecMulDRC_correct m v n h (1/k)
  exact ⟨m', hm, by simpa [div_eq_mul_inv] using hw⟩
/-- **C06** touch-up: exactly the components within the tolerance become zero. -/
theorem zRawVecTouchup_correct [Field K] [LinearOrder K] (tol : K) :
    ∃ m', zRawVecTouchup v n tol m = .ok m' ∧
      Wrote m m' v n (fun i => if |m.val (v+i)| ≤ tol then 0 else m.val (v+i)) := by
  obtain ⟨m', hm, hw⟩ := map1_wrote (fun a => if Misc.zIsTol a tol then 0 else a) v v n m h h (safe_self v n)
  exact ⟨m', hm, by simpa [Misc.zIsTol] using hw⟩
/-- **C06** filling with a constant. -/
theorem zRawVecSetAll_correct (c : K) :
    ∃ m', zRawVecSetAll v n c m = .ok m' ∧ Wrote m m' v n (fun _ => c) := by
  unfold zRawVecSetAll
  rw [Int.toNat_natCast]
  obtain ⟨m', hm, hsz, hw, hf⟩ := forUpM_ok (lo := 0) (hi := n)
    (fun i (m : Mem K) => m.wr (v+i) c) m
    (fun k (t : Mem K) => t.size = m.size ∧ (∀ i, i < k → t.val (v+i) = c) ∧
      (∀ a, a < v ∨ v + k ≤ a → t.val a = m.val a)) (Nat.zero_le _) ⟨rfl, by simp, by simp⟩
    (by
      rintro k t - hk ⟨hsz, hw, hf⟩
      refine ⟨⟨t.size, fun j => if j = v+k then c else t.val j⟩, ?_, hsz, ?_, ?_⟩
      · simp [Mem.wr_ok t _ (show v+k < t.size by omega)]
      · intro i hi
        by_cases hik : i = k
        · subst hik; simp
        · simp only; rw [if_neg (by omega), hw i (by omega)]
      · intro a ha
        simp only; rw [if_neg (by omega), hf a (by omega)])
  exact ⟨m', hm, hsz, hw, hf⟩
/-- **C06** linear space: first element `from`, last element `to`, equal spacing (for at least two elements). -/
theorem zRawVecLinSpace_correct [Field K] [CharZero K] (a b : K) (hn : 2 ≤ n) :
    ∃ m', zRawVecLinSpace v n a b m = .ok m' ∧
      Wrote m m' v n (fun i => a + (b - a) * i / (n - 1)) ∧ m'.val v = a ∧ m'.val (v + (n-1)) = b := by
  unfold zRawVecLinSpace
  rw [Int.toNat_natCast]
  obtain ⟨m', hm, hsz, hw, hf⟩ := forUpM_ok (lo := 0) (hi := n)
    (fun i (m : Mem K) => m.wr (v+i) ((b - a) * (i : K) / (((n:Int) - 1 : Int) : K) + a)) m
    (fun k (t : Mem K) => t.size = m.size ∧ (∀ i, i < k → t.val (v+i) = a + (b - a) * i / (n - 1)) ∧
      (∀ a, a < v ∨ v + k ≤ a → t.val a = m.val a)) (Nat.zero_le _) ⟨rfl, by simp, by simp⟩
    (by
      rintro k t - hk ⟨hsz, hw, hf⟩
      refine ⟨⟨t.size, fun j => if j = v+k then (b - a) * (k : K) / (((n:Int) - 1 : Int) : K) + a else t.val j⟩,
        ?_, hsz, ?_, ?_⟩
      · simp [Mem.wr_ok t _ (show v+k < t.size by omega)]
      · intro i hi
        by_cases hik : i = k
        · subst hik; simp [add_comm]
        · simp only; rw [if_neg (by omega), hw i (by omega)]
      · intro a ha
        simp only; rw [if_neg (by omega), hf a (by omega)])
  have hne : ((n:K) - 1) ≠ 0 := by
    rw [sub_ne_zero]; norm_cast; omega
  refine ⟨m', hm, ⟨hsz, hw, hf⟩, ?_, ?_⟩
  · simpa using hw 0 (by omega)
  · rw [hw (n-1) (by omega), Nat.cast_sub (by omega)]; push_cast; field_simp; ring
include h2 hs2

/-- **C06** in-place addition. -/
theorem zRawVecAddDRC_correct [Add K] :
    ∃ m', zRawVecAddDRC v v2 n m = .ok m' ∧ Wrote m m' v n (fun i => m.val (v+i) + m.val (v2+i)) :=
  map2_wrote _ v v2 v n m h h2 h (safe_self v n) hs2
/-- **C06** in-place subtraction. -/
theorem zRawVecSubDRC_correct [Sub K] :
    ∃ m', zRawVecSubDRC v v2 n m = .ok m' ∧ Wrote m m' v n (fun i => m.val (v+i) - m.val (v2+i)) :=
  map2_wrote _ v v2 v n m h h2 h (safe_self v n) hs2
/-- **C06** in-place element-wise product. -/
theorem zRawVecAmpDRC_correct [Mul K] :
    ∃ m', zRawVecAmpDRC v v2 n m = .ok m' ∧ Wrote m m' v n (fun i => m.val (v+i) * m.val (v2+i)) :=
  map2_wrote _ v v2 v n m h h2 h (safe_self v n) hs2
/-- **C06** in-place element-wise quotient. -/
theorem zRawVecDemDRC_correct [Div K] :
    ∃ m', zRawVecDemDRC v v2 n m = .ok m' ∧ Wrote m m' v n (fun i => m.val (v+i) / m.val (v2+i)) :=
  map2_wrote _ v v2 v n m h h2 h (safe_self v n) hs2
/-- **C06** in-place multiply-add. -/
theorem zRawVecCatDRC_correct [Add K] [Mul K] (k : K) :
    ∃ m', zRawVecCatDRC v k v2 n m = .ok m' ∧ Wrote m m' v n (fun i => m.val (v+i) + m.val (v2+i) * k) :=
  map2_wrote _ v v2 v n m h h2 h (safe_self v n) hs2
/-- **C06** in-place interior division. -/
theorem zRawVecInterDivDRC_correct [Ring K] (r : K) :
    ∃ m', zRawVecInterDivDRC v v2 r n m = .ok m' ∧
      Wrote m m' v n (fun i => m.val (v+i) + r * (m.val (v2+i) - m.val (v+i))) :=
  map2_wrote _ v v2 v n m h h2 h (safe_self v n) hs2
end direct

/-- **C06** copying between non-overlapping ranges. -/
theorem zRawVecCopy_correct (m : Mem K) (src dest n : Nat) (h1 : src + n ≤ m.size) (h2 : dest + n ≤ m.size)
    (hd : src + n ≤ dest ∨ dest + n ≤ src) :
    ∃ m', zRawVecCopy src dest n m = .ok m' ∧ Wrote m m' dest n (fun i => m.val (src+i)) := by
  unfold zRawVecCopy
  rw [if_neg (by omega), if_neg (by rw [Int.toNat_natCast]; tauto)]
  exact map1_wrote id src dest n m h1 h2 (by unfold Safe; omega)

/-- A non-positive size touches nothing at all. -/
theorem map2_nonpos (op : K → K → K) (v1 v2 v : Nat) (size : Int) (hz : size ≤ 0) (m : Mem K) :
    map2 op v1 v2 v size m = .ok m := by
  have : size.toNat = 0 := by omega
  simp [map2, this, forUpM, forNM]

/-- The aliasing hypothesis is not an artefact: with the destination strictly inside the source range the forward
loop of `zRawVecAdd` reads values it has already overwritten. -/
theorem zRawVecAdd_overlap_wrong : ∃ (m : Mem ℤ), ∃ m', zRawVecAdd 0 0 1 2 m = .ok m' ∧
    m'.val 2 ≠ m.val 1 + m.val 1 :=
  ⟨Mem.ofList [1, 5, 3], _, rfl, by decide +kernel⟩

open Finset in
/-- **C06** the compensated inner product is exactly the inner product (in exact arithmetic). -/
theorem zRawVecInnerProd_correct [CommRing K] (m : Mem K) (v1 v2 n : Nat) (h1 : v1 + n ≤ m.size)
    (h2 : v2 + n ≤ m.size) :
    zRawVecInnerProd v1 v2 n m = .ok (∑ i ∈ range n, m.val (v1+i) * m.val (v2+i)) := by
  unfold zRawVecInnerProd
  rw [Int.toNat_natCast]
  obtain ⟨a, ha, hs, hp, hq⟩ := forUpM_ok (lo := 0) (hi := n)
    (fun i (a : Acc K) => do return a.step ((← m.rd (v1+i)) * (← m.rd (v2+i)))) (⟨0, 0, 0⟩ : Acc K)
    (fun k a => a.s = ∑ i ∈ range k, m.val (v1+i) * m.val (v2+i) ∧ a.s_prev = a.s ∧ a.q = 0)
    (Nat.zero_le _) ⟨by simp, rfl, rfl⟩
    (by
      rintro k a - hk ⟨hs, hp, hq⟩
      refine ⟨a.step (m.val (v1+k) * m.val (v2+k)), ?_, ?_, ?_, ?_⟩
      · simp [Mem.rd_ok m (show v1+k < m.size by omega), Mem.rd_ok m (show v2+k < m.size by omega)]
      · simp [Acc.step, sum_range_succ, hp, hs]
      · simp [Acc.step]
      · simp [Acc.step, hq])
  rw [ha]; simp [hs, hq]

open Finset in
/-- **C06** the weighted squared norm. -/
theorem zRawVecWSqrNorm_correct [CommRing K] (m : Mem K) (v w n : Nat) (h1 : v + n ≤ m.size) (h2 : w + n ≤ m.size) :
    zRawVecWSqrNorm v w n m = .ok (∑ i ∈ range n, m.val (w+i) * m.val (v+i) ^ 2) := by
  unfold zRawVecWSqrNorm
  rw [Int.toNat_natCast]
  obtain ⟨a, ha, hs, hp, hq⟩ := forUpM_ok (lo := 0) (hi := n)
    (fun i (a : Acc K) => do return a.step ((← m.rd (w+i)) * (← m.rd (v+i)) * (← m.rd (v+i)))) (⟨0, 0, 0⟩ : Acc K)
    (fun k a => a.s = ∑ i ∈ range k, m.val (w+i) * m.val (v+i) ^ 2 ∧ a.s_prev = a.s ∧ a.q = 0)
    (Nat.zero_le _) ⟨by simp, rfl, rfl⟩
    (by
      rintro k a - hk ⟨hs, hp, hq⟩
      refine ⟨a.step (m.val (w+k) * m.val (v+k) * m.val (v+k)), ?_, ?_, ?_, ?_⟩
      · simp [Mem.rd_ok m (show v+k < m.size by omega), Mem.rd_ok m (show w+k < m.size by omega)]
      · simp [Acc.step, sum_range_succ, hp, hs]; ring
      · simp [Acc.step]
      · simp [Acc.step, hq])
  rw [ha]; simp [hs, hq]

open Finset in
/-- **C06** the squared distance. -/
theorem zRawVecSqrDist_correct [CommRing K] (m : Mem K) (v1 v2 n : Nat) (h1 : v1 + n ≤ m.size) (h2 : v2 + n ≤ m.size) :
    zRawVecSqrDist v1 v2 n m = .ok (∑ i ∈ range n, (m.val (v1+i) - m.val (v2+i)) ^ 2) := by
  unfold zRawVecSqrDist
  rw [Int.toNat_natCast]
  obtain ⟨d, hd, hs⟩ := forUpM_ok (lo := 0) (hi := n)
    (fun i d => do
      let e := (← m.rd (v1+i)) - (← m.rd (v2+i))
      return d + e * e) (0 : K)
    (fun k d => d = ∑ i ∈ range k, (m.val (v1+i) - m.val (v2+i)) ^ 2) (Nat.zero_le _) (by simp)
    (by
      rintro k d - hk hs
      refine ⟨d + (m.val (v1+k) - m.val (v2+k)) * (m.val (v1+k) - m.val (v2+k)), ?_, ?_⟩
      · simp [Mem.rd_ok m (show v1+k < m.size by omega), Mem.rd_ok m (show v2+k < m.size by omega)]
      · rw [sum_range_succ, hs]; ring)
  rw [hd, hs]

/-- Concrete case: in-place `v1 += v2` inside a block of five cells. -/
example : ∃ m', zRawVecAddDRC (K := ℤ) 0 2 2 (Mem.ofList [1,2,10,20,7]) = .ok m' ∧ m'.toList = [11,22,10,20,7] :=
  ⟨_, rfl, by decide +kernel⟩

end Zm.RawVec

namespace Zm.Vec
open Zm RawVec
variable {K : Type*}

/-! ## C07 -/

/-- A vector lies inside memory. -/
def VecRef.In (v : VecRef) (m : Mem K) : Prop := v.buf + v.size ≤ m.size

/-- Two vectors are the same object or occupy disjoint memory. -/
def VecRef.Apart (u v : VecRef) : Prop := u.buf = v.buf ∨ u.buf + u.size ≤ v.buf ∨ v.buf + v.size ≤ u.buf

/-- Outcome of a checked operation: memory `m'` and success flag; a failed call leaves all memory unchanged. -/
def Checked (m : Mem K) (out : Res (Mem K × Bool)) (good : Prop) (v : VecRef) (f : Nat → K) : Prop :=
  (good → ∃ m', out = .ok (m', true) ∧ Wrote m m' v.buf v.size f) ∧ (¬ good → out = .ok (m, false))

theorem safe_of_apart {u v : VecRef} (h : u.Apart v) (hs : u.size = v.size) : Safe v.buf u.buf v.size := by
  unfold VecRef.Apart at h; unfold Safe; omega

theorem check3_checked (m : Mem K) (v1 v2 v : VecRef) (nc : Res (Mem K)) (f : Nat → K)
    (h : v1.size = v2.size → v1.size = v.size → ∃ m', nc = .ok m' ∧ Wrote m m' v.buf v.size f) :
    Checked m (check3 v1 v2 v m nc) (v1.size = v2.size ∧ v1.size = v.size) v f := by
  unfold Checked check3 zVecSizeEqual
  constructor
  · rintro ⟨e1, e2⟩
    obtain ⟨m', hm, hw⟩ := h e1 e2
    exact ⟨m', by rw [if_neg (by simp [← e1, e2]), hm]; rfl, hw⟩
  · intro hn
    rw [if_pos (by simp; tauto)]

theorem check2_checked (m : Mem K) (v1 v : VecRef) (nc : Res (Mem K)) (f : Nat → K)
    (h : v1.size = v.size → ∃ m', nc = .ok m' ∧ Wrote m m' v.buf v.size f) :
    Checked m (check2 v1 v m nc) (v1.size = v.size) v f := by
  unfold Checked check2 zVecSizeEqual
  constructor
  · intro e
    obtain ⟨m', hm, hw⟩ := h e
    exact ⟨m', by simp [e, hm], hw⟩
  · intro hn
    rw [if_pos (by simp; tauto)]

section checked
variable (m : Mem K) (v1 v2 v : VecRef) (i1 : v1.In m) (i2 : v2.In m) (iv : v.In m)
  (a1 : v1.Apart v) (a2 : v2.Apart v)
include i1 iv a1

/-- **C07** `zVecRev`. -/
theorem zVecRev_checked [Neg K] :
    Checked m (zVecRev v1 v m) (v1.size = v.size) v (fun i => -m.val (v1.buf+i)) := by
  unfold VecRef.In at *
  exact check2_checked m v1 v _ _ (fun e => zRawVecRev_correct m _ _ _ (by omega) iv (safe_of_apart a1 e))
/-- **C07** `zVecMul`. -/
theorem zVecMul_checked [Mul K] (k : K) :
    Checked m (zVecMul v1 k v m) (v1.size = v.size) v (fun i => m.val (v1.buf+i) * k) := by
  unfold VecRef.In at *
  exact check2_checked m v1 v _ _ (fun e => zRawVecMul_correct m _ _ _ (by omega) iv (safe_of_apart a1 e) k)
/-- **C07** `zVecDiv`: also refuses a divisor within `zTOL` of zero, before touching memory. -/
theorem zVecDiv_checked [Field K] [LinearOrder K] (tol k : K) :
    Checked m (zVecDiv tol v1 k v m) (v1.size = v.size ∧ ¬ |k| ≤ tol) v (fun i => m.val (v1.buf+i) / k) := by
  unfold VecRef.In at *
  unfold Checked zVecDiv zVecSizeEqual
  constructor
  · rintro ⟨e, hk⟩
    obtain ⟨m', hm, hw⟩ := zRawVecDiv_correct m v1.buf v.buf v.size (by omega) iv (safe_of_apart a1 e) k
    exact ⟨m', by simp [e, hm, Misc.zIsTol, hk], hw⟩
  · intro hn
    by_cases e : v1.size = v.size
    · have : |k| ≤ tol := by tauto
      simp [e, Misc.zIsTol, this]
    · simp [e]
include i2 a2

/-- **C07** `zVecAdd`: succeeds iff the three sizes agree; then writes the element-wise sum into the destination and
nothing else; otherwise leaves memory untouched and reports failure. -/
theorem zVecAdd_checked [Add K] : Checked m (zVecAdd v1 v2 v m) (v1.size = v2.size ∧ v1.size = v.size) v
    (fun i => m.val (v1.buf+i) + m.val (v2.buf+i)) := by
  unfold VecRef.In at *
  exact check3_checked m v1 v2 v _ _ (fun e1 e2 => zRawVecAdd_correct m _ _ _ _ (by omega) (by omega) iv
    (safe_of_apart a1 e2) (safe_of_apart a2 (by omega)))
/-- **C07** `zVecSub`. -/
theorem zVecSub_checked [Sub K] : Checked m (zVecSub v1 v2 v m) (v1.size = v2.size ∧ v1.size = v.size) v
    (fun i => m.val (v1.buf+i) - m.val (v2.buf+i)) := by
  unfold VecRef.In at *
  exact check3_checked m v1 v2 v _ _ (fun e1 e2 => zRawVecSub_correct m _ _ _ _ (by omega) (by omega) iv
    (safe_of_apart a1 e2) (safe_of_apart a2 (by omega)))
/-- **C07** `zVecAmp`. -/
theorem zVecAmp_checked [Mul K] : Checked m (zVecAmp v1 v2 v m) (v1.size = v2.size ∧ v1.size = v.size) v
    (fun i => m.val (v1.buf+i) * m.val (v2.buf+i)) := by
  unfold VecRef.In at *
  exact check3_checked m v1 v2 v _ _ (fun e1 e2 => zRawVecAmp_correct m _ _ _ _ (by omega) (by omega) iv
    (safe_of_apart a1 e2) (safe_of_apart a2 (by omega)))
/-- **C07** `zVecCat`. -/
theorem zVecCat_checked [Add K] [Mul K] (k : K) :
    Checked m (zVecCat v1 k v2 v m) (v1.size = v2.size ∧ v1.size = v.size) v
    (fun i => m.val (v1.buf+i) + m.val (v2.buf+i) * k) := by
  unfold VecRef.In at *
  exact check3_checked m v1 v2 v _ _ (fun e1 e2 => zRawVecCat_correct m _ _ _ _ (by omega) (by omega) iv
    (safe_of_apart a1 e2) (safe_of_apart a2 (by omega)) k)
end checked

/-- **C07** `zVecCopy` between distinct vectors. -/
theorem zVecCopy_checked (m : Mem K) (src dest : VecRef) (i1 : src.In m) (i2 : dest.In m)
    (hd : src.buf + src.size ≤ dest.buf ∨ dest.buf + dest.size ≤ src.buf) :
    Checked m (zVecCopy src dest m) (src.size = dest.size) dest (fun i => m.val (src.buf+i)) := by
  unfold VecRef.In at *
  exact check2_checked m src dest _ _ (fun e => zRawVecCopy_correct m _ _ _ (by omega) i2 (by omega))

/-- **C07** `zVecInnerProd`: the inner product for equal sizes, 0 otherwise. -/
theorem zVecInnerProd_checked [CommRing K] (m : Mem K) (v1 v2 : VecRef) (i1 : v1.In m) (i2 : v2.In m) :
    zVecInnerProd v1 v2 m = .ok (if v1.size = v2.size then
      ∑ i ∈ Finset.range v1.size, m.val (v1.buf+i) * m.val (v2.buf+i) else 0) := by
  unfold VecRef.In at *
  unfold zVecInnerProd zVecSizeEqual
  by_cases e : v1.size = v2.size
  · simp only [e, beq_self_eq_true, Bool.not_true, Bool.false_eq_true, if_false, if_true]
    exact zRawVecInnerProd_correct m _ _ _ (by omega) i2
  · simp [e]

/-- The hypotheses are met by two vectors of three elements, the destination being the second operand. -/
example : (⟨0, 3⟩ : VecRef).In (Mem.ofList [1,2,3,4,5,6] : Mem ℚ) ∧ (⟨3, 3⟩ : VecRef).In (Mem.ofList [1,2,3,4,5,6] : Mem ℚ) ∧
    (⟨0, 3⟩ : VecRef).Apart ⟨3, 3⟩ ∧ (⟨3, 3⟩ : VecRef).Apart ⟨3, 3⟩ := by
  simp [VecRef.In, VecRef.Apart, Mem.ofList]

/-! ## C08 -/

/-- **C08 is violated by `zVecSwap`.** An index equal to the vector's size, or a negative one, passes the check and
the swap accesses memory outside the vector (here: outside the only allocated block). -/
theorem zVecSwap_undefined :
    zVecSwap ⟨0, 3⟩ 0 3 (Mem.ofList [1,2,3] : Mem ℚ) = .ub ∧
    zVecSwap ⟨0, 3⟩ (-1) 0 (Mem.ofList [1,2,3] : Mem ℚ) = .ub := by
  refine ⟨?_, ?_⟩ <;>
  simp [zVecSwap, zRawVecSwap, Mem.rdI, Mem.wrI, Mem.ofList, Res.bind_ok, Res.bind_ub]

/-- **C08 is violated by `zVecGet`/`zVecPut`.** A negative position passes the check and leaves the vector. -/
theorem zVecGet_undefined :
    zVecGet ⟨0, 2⟩ (-1) ⟨2, 1⟩ (Mem.ofList [1,2,3] : Mem ℚ) = .ub ∧
    zVecPut ⟨0, 2⟩ (-1) ⟨2, 1⟩ (Mem.ofList [1,2,3] : Mem ℚ) = .ub := by
  constructor <;>
  simp [zVecGet, zVecPut, memcpyI, forUpM, forNM, Mem.rdI, Mem.wrI, Mem.ofList, Res.bind]

/-- **C08 (partial).** For indices in range `zVecSwap` exchanges the two elements and nothing else; for an index beyond
the size it refuses and leaves memory alone.  Missing (and false): refusal of `size` itself and of negative indices. -/
theorem zVecSwap_correct_partial (v : VecRef) (m : Mem K) (hv : v.In m) :
    (∀ i1 i2 : Nat, i1 < v.size → i2 < v.size → ∃ m', zVecSwap v i1 i2 m = .ok (m', true) ∧ m'.size = m.size ∧
      m'.val (v.buf+i1) = m.val (v.buf+i2) ∧ m'.val (v.buf+i2) = m.val (v.buf+i1) ∧
      ∀ a, a ≠ v.buf+i1 → a ≠ v.buf+i2 → m'.val a = m.val a) ∧
    (∀ i1 i2 : Int, (i1 > v.size ∨ i2 > v.size) → zVecSwap v i1 i2 m = .ok (m, false)) := by
  unfold VecRef.In at hv
  constructor
  · intro i1 i2 h1 h2
    refine ⟨⟨m.size, fun j => if (j:Int) = v.buf + i2 then m.val (v.buf+i1) else
        if (j:Int) = v.buf + i1 then m.val (v.buf+i2) else m.val j⟩, ?_, rfl, ?_, ?_, ?_⟩
    · have e1 : ((v.buf:Int) + (i1:Int)).toNat = v.buf + i1 := by omega
      have e2 : ((v.buf:Int) + (i2:Int)).toNat = v.buf + i2 := by omega
      unfold zVecSwap zRawVecSwap Mem.rdI Mem.wrI
      rw [if_neg (by omega)]
      rw [if_pos ⟨by omega, by omega⟩, if_pos ⟨by omega, by omega⟩]
      simp only [Res.bind_ok, if_pos (show (0:Int) ≤ (v.buf:Int) + i1 ∧ (v.buf:Int) + i1 < m.size by omega),
        if_pos (show (0:Int) ≤ (v.buf:Int) + i2 ∧ (v.buf:Int) + i2 < m.size by omega), e1, e2, Res.pure_eq]
    · simp only
      by_cases h : i1 = i2
      · subst h; simp
      · rw [if_neg (by omega), if_pos (by push_cast; rfl)]
    · simp only; rw [if_pos (by push_cast; rfl)]
    · intro a ha1 ha2
      simp only; rw [if_neg (by omega), if_neg (by omega)]
  · intro i1 i2 h
    unfold zVecSwap; rw [if_pos h]

/-- **C08 (partial), sub-vector access.** For a non-negative position, `zVecGet` either refuses (exactly when the range does
not fit) leaving memory alone, or copies exactly the addressed elements; `zVecPut` likewise.
Missing (and false): negative positions. -/
theorem zVecGet_correct_partial (src dest : VecRef) (m : Mem K) (hs : src.In m) (hd : dest.In m) (pos : Nat)
    (hap : src.buf + src.size ≤ dest.buf ∨ dest.buf + dest.size ≤ src.buf) :
    Checked m (zVecGet src pos dest m) (pos + dest.size ≤ src.size) dest (fun i => m.val (src.buf + pos + i)) := by
  unfold VecRef.In at *
  unfold Checked zVecGet
  constructor
  · intro hfit
    rw [if_neg (by omega)]
    unfold memcpyI
    rw [if_neg (by omega)]
    obtain ⟨m', hm, hsz, hw, hf⟩ := forUpM_ok (lo := 0) (hi := dest.size)
      (fun i (m : Mem K) => do m.wrI ((dest.buf:Int)+i) (← m.rdI ((src.buf:Int)+pos+i))) m
      (fun k (t : Mem K) => t.size = m.size ∧ (∀ i, i < k → t.val (dest.buf+i) = m.val (src.buf + pos + i)) ∧
        (∀ a, a < dest.buf ∨ dest.buf + k ≤ a → t.val a = m.val a)) (Nat.zero_le _) ⟨rfl, by simp, by simp⟩
      (by
        rintro k t - hk ⟨hsz, hw, hf⟩
        have hr : t.val (src.buf+pos+k) = m.val (src.buf+pos+k) := hf _ (by omega)
        refine ⟨⟨t.size, fun j => if (j:Int) = dest.buf+k then m.val (src.buf+pos+k) else t.val j⟩, ?_, hsz, ?_, ?_⟩
        · have e : ((src.buf:Int) + (pos:Int) + (k:Int)).toNat = src.buf + pos + k := by omega
          simp only [Mem.rdI, Mem.wrI, if_pos (show (0:Int) ≤ (src.buf:Int) + pos + k ∧ (src.buf:Int)+pos+k < t.size by omega),
            if_pos (show (0:Int) ≤ (dest.buf:Int) + k ∧ (dest.buf:Int)+k < t.size by omega), Res.bind_ok, e, hr]
        · intro i hi
          by_cases hik : i = k
          · subst hik; simp
          · simp only; rw [if_neg (by omega), hw i (by omega)]
        · intro a ha
          simp only; rw [if_neg (by omega), hf a (by omega)])
    exact ⟨m', by rw [hm]; rfl, hsz, hw, hf⟩
  · intro hn
    rw [if_pos (by omega)]

theorem zVecPut_correct_partial (dest src : VecRef) (m : Mem K) (hs : src.In m) (hd : dest.In m) (pos : Nat)
    (hap : src.buf + src.size ≤ dest.buf ∨ dest.buf + dest.size ≤ src.buf) :
    (pos + src.size ≤ dest.size → ∃ m', zVecPut dest pos src m = .ok (m', true) ∧
      Wrote m m' (dest.buf + pos) src.size (fun i => m.val (src.buf + i))) ∧
    (¬ pos + src.size ≤ dest.size → zVecPut dest pos src m = .ok (m, false)) := by
  unfold VecRef.In at *
  unfold zVecPut
  constructor
  · intro hfit
    rw [if_neg (by omega)]
    unfold memcpyI
    rw [if_neg (by omega)]
    obtain ⟨m', hm, hsz, hw, hf⟩ := forUpM_ok (lo := 0) (hi := src.size)
      (fun i (m : Mem K) => do m.wrI ((dest.buf:Int)+pos+i) (← m.rdI ((src.buf:Int)+i))) m
      (fun k (t : Mem K) => t.size = m.size ∧ (∀ i, i < k → t.val (dest.buf+pos+i) = m.val (src.buf + i)) ∧
        (∀ a, a < dest.buf+pos ∨ dest.buf + pos + k ≤ a → t.val a = m.val a)) (Nat.zero_le _) ⟨rfl, by simp, by simp⟩
      (by
        rintro k t - hk ⟨hsz, hw, hf⟩
        have hr : t.val (src.buf+k) = m.val (src.buf+k) := hf _ (by omega)
        refine ⟨⟨t.size, fun j => if (j:Int) = dest.buf+pos+k then m.val (src.buf+k) else t.val j⟩, ?_, hsz, ?_, ?_⟩
        · have e : ((src.buf:Int) + (k:Int)).toNat = src.buf + k := by omega
          simp only [Mem.rdI, Mem.wrI, if_pos (show (0:Int) ≤ (src.buf:Int) + k ∧ (src.buf:Int)+k < t.size by omega),
            if_pos (show (0:Int) ≤ (dest.buf:Int) + pos + k ∧ (dest.buf:Int)+pos+k < t.size by omega), Res.bind_ok, e, hr]
        · intro i hi
          by_cases hik : i = k
          · subst hik; simp
          · simp only; rw [if_neg (by omega), hw i (by omega)]
        · intro a ha
          simp only; rw [if_neg (by omega), hf a (by omega)])
    exact ⟨m', by rw [hm]; rfl, hsz, hw, hf⟩
  · intro hn
    rw [if_pos (by omega)]

end Zm.Vec
