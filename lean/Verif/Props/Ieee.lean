import Verif.Model.Ieee

/-! # C04: IEEE-754 classification of every 64-bit pattern -/

namespace Zm.Ieee

/-! Specification: the fields of an IEEE-754 binary64 word. -/

/-- Sign bit (bit 63). -/
def sign (w : BitVec 64) : Nat := w.toNat / 2^63
/-- Biased exponent (bits 62..52). -/
def expo (w : BitVec 64) : Nat := w.toNat / 2^52 % 2^11
/-- Mantissa (bits 51..0). -/
def mant (w : BitVec 64) : Nat := w.toNat % 2^52

theorem byteLE_toNat (w : BitVec 64) (i : Nat) : (byteLE w i).toNat = w.toNat / 2^(8*i) % 256 := by
  simp [byteLE, BitVec.extractLsb'_toNat, Nat.shiftRight_eq_div_pow]

theorem byte_eq_iff (b c : BitVec 8) : b = c ↔ b.toNat = c.toNat := BitVec.toNat_eq

theorem and7f (b : BitVec 8) : (b &&& 0x7f#8) = 0x7f#8 ↔ b.toNat % 128 = 127 := by
  have h : ∀ n : Fin 256, (BitVec.ofFin (w := 8) n &&& 0x7f#8) = 0x7f#8 ↔ n.val % 128 = 127 := by decide +kernel
  exact h b.toFin

theorem andf0 (b : BitVec 8) : (b &&& 0xf0#8) = 0xf0#8 ↔ b.toNat / 16 = 15 := by
  have h : ∀ n : Fin 256, (BitVec.ofFin (w := 8) n &&& 0xf0#8) = 0xf0#8 ↔ n.val / 16 = 15 := by decide +kernel
  exact h b.toFin

theorem and0f (b : BitVec 8) : (b &&& 0x0f#8) = 0#8 ↔ b.toNat % 16 = 0 := by
  have h : ∀ n : Fin 256, (BitVec.ofFin (w := 8) n &&& 0x0f#8) = 0#8 ↔ n.val % 16 = 0 := by decide +kernel
  exact h b.toFin

/-- **C04 (infinity).** On a little-endian machine `zIsInf` returns ±1 exactly on the two infinities, with the
sign of the infinity, and 0 on every other one of the 2^64 bit patterns. -/
theorem zIsInf_correct (w : BitVec 64) :
    zIsInf (byteLE w) = if expo w = 2047 ∧ mant w = 0 then (if sign w = 0 then 1 else -1) else 0 := by
  have hw : w.toNat < 2^64 := w.isLt
  unfold zIsInf expo mant sign
  simp only [ne_eq, BitVec.or_eq_zero_iff, byte_eq_iff, byteLE_toNat, BitVec.toNat_ofNat]
  generalize w.toNat = n at *
  simp only [Nat.reduceMul, Nat.reducePow, Nat.reduceMod, Nat.pow_zero, Nat.div_one] at hw ⊢
  have key : (¬ n / 281474976710656 % 256 = 240 ∨ ¬ (((((n / 1099511627776 % 256 = 0 ∧ n / 4294967296 % 256 = 0) ∧
      n / 16777216 % 256 = 0) ∧ n / 65536 % 256 = 0) ∧ n / 256 % 256 = 0) ∧ n % 256 = 0)) ↔
      ¬ n % 72057594037927936 = 67553994410557440 := by omega
  have h7 : n / 72057594037927936 % 256 = n / 72057594037927936 := by omega
  have hmod := Nat.div_add_mod n 72057594037927936
  have hlt := Nat.mod_lt n (show 0 < 72057594037927936 by decide)
  simp only [key, h7]
  generalize n / 72057594037927936 = q at *
  generalize n % 72057594037927936 = r at *
  subst hmod
  by_cases hr : r = 67553994410557440
  · subst hr
    have e1 : (72057594037927936 * q + 67553994410557440) % 4503599627370496 = 0 := by omega
    have e2 : (72057594037927936 * q + 67553994410557440) / 4503599627370496 % 2048 = 2047 ↔ q = 127 ∨ q = 255 := by
      omega
    have e3 : (72057594037927936 * q + 67553994410557440) / 9223372036854775808 = 0 ↔ q < 128 := by omega
    simp only [e1, e2, e3]
    by_cases h1 : q = 127
    · simp [h1]
    · by_cases h2 : q = 255 <;> simp [h1, h2]
  · have : ¬ ((72057594037927936 * q + r) / 4503599627370496 % 2048 = 2047 ∧
        (72057594037927936 * q + r) % 4503599627370496 = 0) := by omega
    simp [hr, this]

/-- **C04 (NaN).** `zIsNan` holds exactly on the patterns with all-ones exponent and non-zero mantissa. -/
theorem zIsNan_correct (w : BitVec 64) :
    zIsNan (byteLE w) = true ↔ expo w = 2047 ∧ mant w ≠ 0 := by
  have hw : w.toNat < 2^64 := w.isLt
  unfold zIsNan expo mant
  simp only [ne_eq, decide_eq_true_eq, BitVec.or_eq_zero_iff, and7f, andf0, and0f]
  simp only [byte_eq_iff, byteLE_toNat, BitVec.toNat_ofNat]
  generalize w.toNat = n at *
  simp only [Nat.reduceMul, Nat.reducePow, Nat.reduceMod, Nat.pow_zero, Nat.div_one] at hw ⊢
  omega

/-- **C04 (finiteness).** `zIsFinite` holds exactly when the exponent is not all ones. -/
theorem zIsFinite_correct (w : BitVec 64) : zIsFinite (byteLE w) = true ↔ expo w ≠ 2047 := by
  unfold zIsFinite
  have hn : zIsNan (byteLE w) = false ↔ ¬ (expo w = 2047 ∧ mant w ≠ 0) := by
    rw [← zIsNan_correct]; simp
  simp only [Bool.and_eq_true, decide_eq_true_eq, Bool.not_eq_true', hn, zIsInf_correct]
  by_cases h1 : expo w = 2047 <;> by_cases h2 : mant w = 0 <;> by_cases h3 : sign w = 0 <;> simp [h1, h2, h3]

/-- **C04 (trichotomy).** Exactly one of infinite, NaN, finite holds of every bit pattern. -/
theorem classification_exclusive (w : BitVec 64) :
    (zIsInf (byteLE w) ≠ 0 ∧ zIsNan (byteLE w) = false ∧ zIsFinite (byteLE w) = false) ∨
    (zIsInf (byteLE w) = 0 ∧ zIsNan (byteLE w) = true ∧ zIsFinite (byteLE w) = false) ∨
    (zIsInf (byteLE w) = 0 ∧ zIsNan (byteLE w) = false ∧ zIsFinite (byteLE w) = true) := by
  have hn : zIsNan (byteLE w) = false ↔ ¬ (expo w = 2047 ∧ mant w ≠ 0) := by
    rw [← zIsNan_correct]; simp
  have hf : zIsFinite (byteLE w) = false ↔ ¬ expo w ≠ 2047 := by
    rw [← zIsFinite_correct]; simp
  rw [hn, hf, zIsNan_correct, zIsFinite_correct, zIsInf_correct]
  by_cases h1 : expo w = 2047 <;> by_cases h2 : mant w = 0 <;> by_cases h3 : sign w = 0 <;> simp [h1, h2, h3]

/-- Concrete patterns: +inf, -inf, the library's NaN (zm_ieee.c:32-39), 1.0. -/
example : zIsInf (byteLE 0x7ff0000000000000#64) = 1 ∧ zIsInf (byteLE 0xfff0000000000000#64) = -1 ∧
    zIsNan (byteLE 0x7ff8000000000000#64) = true ∧ zIsFinite (byteLE 0x3ff0000000000000#64) = true := by decide

/-- **Disagreement (big-endian).** Although zm_ieee.c:11-13 and 33-35 provide big-endian constants, the classifier
reads the little-endian byte positions: on a big-endian machine +infinity is classified as finite. -/
theorem zIsInf_bigEndian_wrong :
    zIsInf (byteBE 0x7ff0000000000000#64) = 0 ∧ zIsFinite (byteBE 0x7ff0000000000000#64) = true := by decide

end Zm.Ieee
