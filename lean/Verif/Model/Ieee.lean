/-!
# Model of `src/zm_ieee.c`

The union `__ieee_fp_t` (include/zm/zm_ieee.h:17) gives access to the eight bytes of a `double`.  A `double` is its
64-bit pattern; `byteLE w i` / `byteBE w i` is `val.c[i]` on a little-endian or big-endian machine.
-/

namespace Zm.Ieee

/-- `val.c[i]` after `val.d = x` on a little-endian machine: byte `i` counted from the least significant one. -/
def byteLE (w : BitVec 64) (i : Nat) : BitVec 8 := w.extractLsb' (8 * i) 8

/-- The same on a big-endian machine. -/
def byteBE (w : BitVec 64) (i : Nat) : BitVec 8 := w.extractLsb' (8 * (7 - i)) 8

/-- `zIsInf`, zm_ieee.c:20-29, on the bytes `c`. -/
def zIsInf (c : Nat → BitVec 8) : Int :=
  if c 6 ≠ 0xf0#8 ∨ (c 5 ||| c 4 ||| c 3 ||| c 2 ||| c 1 ||| c 0) ≠ 0#8 then 0
  else if c 7 = 0x7f#8 then 1 else if c 7 = 0xff#8 then -1 else 0

/-- `zIsNan`, zm_ieee.c:42-50, on the bytes `c`. -/
def zIsNan (c : Nat → BitVec 8) : Bool :=
  decide ((c 7 &&& 0x7f#8) = 0x7f#8 ∧ (c 6 &&& 0xf0#8) = 0xf0#8 ∧
    ((c 6 &&& 0x0f#8) ||| c 5 ||| c 4 ||| c 3 ||| c 2 ||| c 1 ||| c 0) ≠ 0#8)

/-- `zIsFinite`, zm_ieee.c:53-56. -/
def zIsFinite (c : Nat → BitVec 8) : Bool :=
  decide (zIsInf c ≠ 1 ∧ zIsInf c ≠ -1) && !zIsNan c

end Zm.Ieee
