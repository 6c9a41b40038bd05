import Verif.Model.MegiddoDyer

/-!
# Model of the files of linear programs of two variables: zm_opt_lp_megiddodyer.c:598-684

These functions are compiled when `DEBUG` is 1.  A binary file is a list of bytes.  How a `double` and an `int` are laid out in bytes is the parameter
`c : Codec K`; any eight bytes are some `double` and any four bytes are some `int`.  `fopen` succeeds or not (`none` for a missing file), `fwrite`
and `fclose` succeed.  A text file is the list of its rows of numbers, as printed.
-/

namespace Zm.MDFile
open Zm Zm.MD
variable {K : Type*} [Field K] [LinearOrder K] [IsStrictOrderedRing K]

/-- The layout of a `double` and of an `int` in a file. -/
structure Codec (K : Type*) where
  encD : K → List UInt8
  decD : List UInt8 → K
  encI : Int → List UInt8
  decI : List UInt8 → Int

/-- `fread( &x, n, 1, fp ) != 1`: fails when fewer than `n` bytes are left.  Gives the bytes and the rest of the file. -/
def fread (n : Nat) (f : List UInt8) : Option (List UInt8 × List UInt8) :=
  if n ≤ f.length then some (f.take n, f.drop n) else none

/-- The body of the loop of `zLPMegiddoDyerReadFile`, zm_opt_lp_megiddodyer.c:615-618: three numbers, or a short file. -/
def readRow (c : Codec K) (f : List UInt8) : Option ((K × K × K) × List UInt8) :=
  (fread 8 f).bind fun r1 => (fread 8 r1.2).bind fun r2 => (fread 8 r2.2).bind fun r3 =>
    some ((c.decD r1.1, c.decD r2.1, c.decD r3.1), r3.2)

/-- The loop of `zLPMegiddoDyerReadFile`, zm_opt_lp_megiddodyer.c:614-619, with `n` turns left.  The value returned by
`zLPMegiddoDyerAddConstraint` is discarded as in the code.  The second member says if the loop has come to its end. -/
def readRows (tol : K) (c : Codec K) : Nat → List UInt8 → Prob K → Prob K × Bool
  | 0, _, p => (p, true)
  | n + 1, f, p =>
    match readRow c f with
    | none => (p, false)
    | some (r, f') => readRows tol c n f' (zLPMegiddoDyerAddConstraint tol p r.1 r.2.1 r.2.2).1

/-- `zLPMegiddoDyerReadFile`, zm_opt_lp_megiddodyer.c:600-624, on the contents of the file (`none`: it cannot be opened) and the problem of the
caller.  The result is the problem left and whether the pointer returned is not null. -/
def zLPMegiddoDyerReadFile (tol : K) (c : Codec K) (p0 : Prob K) (file : Option (List UInt8)) : Prob K × Bool :=
  match file with
  | none => (p0, false)
  | some f =>
    match fread 8 f with
    | none => (zLPMegiddoDyerInit, false)
    | some (d1, f) =>
      match fread 8 f with
      | none => ({ (zLPMegiddoDyerInit : Prob K) with c1 := c.decD d1 }, false)
      | some (d2, f) =>
        match fread 4 f with
        | none => ({ (zLPMegiddoDyerInit : Prob K) with c1 := c.decD d1, c2 := c.decD d2 }, false)
        | some (d3, f) =>
          readRows tol c (c.decI d3).toNat f { (zLPMegiddoDyerInit : Prob K) with c1 := c.decD d1, c2 := c.decD d2 }

/-- One row of the file of an upper bound, zm_opt_lp_megiddodyer.c:643-648. -/
def upperRow (l : Cell K) : K × K × K := (-l.m, 1, l.y0)
/-- One row of the file of a lower bound, zm_opt_lp_megiddodyer.c:651-656. -/
def lowerRow (l : Cell K) : K × K × K := (l.m, -1, -l.y0)

/-- The rows written, zm_opt_lp_megiddodyer.c:642-657. -/
def rows (p : Prob K) : List (K × K × K) := p.upper.reverse.map upperRow ++ p.lower.reverse.map lowerRow

/-- Three `fwrite`s of a row. -/
def encRow (c : Codec K) (r : K × K × K) : List UInt8 := c.encD r.1 ++ c.encD r.2.1 ++ c.encD r.2.2

/-- `zLPMegiddoDyerWriteFile`, zm_opt_lp_megiddodyer.c:627-660, when the file can be opened: the contents of the file. -/
def zLPMegiddoDyerWriteFile (c : Codec K) (p : Prob K) : List UInt8 :=
  c.encD p.c1 ++ c.encD p.c2 ++ c.encI ((p.upper.length + p.lower.length : Nat) : Int) ++ (rows p).flatMap (encRow c)

/-- `zLPMegiddoDyerWriteFileASCII`, zm_opt_lp_megiddodyer.c:663-683: the coefficients of the cost, the number of constraints and the rows.  Both
loops run through the upper bounds, as in the code. -/
def zLPMegiddoDyerWriteFileASCII (p : Prob K) : (K × K) × Nat × List (K × K × K) :=
  ((p.c1, p.c2), p.upper.length + p.lower.length, p.upper.reverse.map upperRow ++ p.upper.reverse.map lowerRow)

end Zm.MDFile
