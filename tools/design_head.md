# Formal model of mi-lib/zm in Lean 4

The library is C code over `double`.  This directory contains a Lean 4 model of its algorithmic core and machine-checked
theorems about that model.  (This file is written by `tools/design.py` from `tools/design_head.md`, `tools/plan.py` and
`tools/claims.py`; edit those.)

## Layout

* `lean/Verif/Base/…`  – outcome type (`ok / fail / ub`), loop combinators, checked buffers, functions updated at a place, and their rules.
* `lean/Verif/Model/…` – the model, one file per group of C sources; every definition cites file and lines in `/repo`.
* `lean/Verif/Props/…` – for each property the small specification it is stated against, lemmas, the theorems, and beside each theorem an
  `example` that meets its hypotheses.
* `properties.jsonl`, `MANIFEST.json` – the list of properties and the table of claims (both generated by scripts in `tools/`).
* `seeded/LOG.jsonl` – the experiments with wrong programs.

## Trusted base

* Lean 4.33.0's kernel, and the three standard axioms `propext`, `Classical.choice`, `Quot.sound`.  Every theorem of the manifest depends on a
  subset of these three.  No other axiom, no `sorry`, no `native_decide`/`bv_decide`.  Concrete witnesses use `decide +kernel`, which is
  evaluated by the kernel.
* The reading of the C code recorded in the comments of `Model/`: nothing is compiled or run here.
* ZEDA, the companion library, is not in `/repo`.  What is assumed of it:
  * `zAlloc` and `zArrayAlloc` return zeroed memory, and NULL for sizes that are not positive.
  * `zArrayResize`, `zArray2RowResize` and `zArray2ColResize` set the size unless it exceeds the capacity and leave the elements where they are; `zArray2Resize` does both.
  * `zListForEach` runs from the tail (the oldest cell) to the head; `zListForEachRew` the other way; the root cell follows the head and precedes
    the tail; `zListInsertHead/Tail`, `zListPurge`, `zListDelete…` change one cell; `zListSpliceAndMoveZ(a,b)` moves all of `b` to `a`.
  * `zQueueEnqueue/Dequeue` are first in, first out; `zRingElem(i)` is `buf[(head+i) % size]`.  `zRingAlloc` and `zArrayAlloc` take the array of pointers from `zAlloc`, so that its entries are null, and leave a null array if that fails; `zRingFree` and `zArrayFree` release it.
  * `zIndexCreate/Order` write consecutive numbers; `zIndexMove` moves one element and keeps the order of the others; `zIndexRemove` shifts the later
    ones up; `zIndexHead` is the last position, `zIndexNeck` the one before, `zIndexTail` position 0.
  * `zQuickSort` and the sort of an index deliver a sorted permutation; `zQuickSelect` finds the element at a position of a sorted permutation, NULL without such a position.
  * `zSwap` exchanges; `zLimit` clamps; `zSNumToken`/`zSTokenize` cut off a number or a name.
  * Random generators return some value of the requested range, `zRandF(a,b)` and `zRandMTN` with both ends, `zRandMTNU` without the upper one.
    Theorems quantify over every sequence of such values.
* Arithmetic: unless a theorem says otherwise, `double` is an exact ordered field (`K` with `[Field K] [LinearOrder K] [IsStrictOrderedRing K]`) or
  `ℝ`/`ℂ` where roots or transcendental functions occur.  Rounding, overflow and not-a-number are outside the model.  A zero divisor is the outcome
  `ub`; HUGE_VAL is `none`.  Theorems about memory, indices, permutations, control flow and data movement are proved for an arbitrary element type
  where possible and so do not depend on that idealisation.  The bit-level IEEE classifiers are modelled on 64-bit words exactly.
  `zTOL` (1e-12) and the other tolerances are parameters; where a theorem takes the tolerance to be zero, its name or the note in the manifest says so.
  `sqrt` is a parameter that is a root of every non-negative number (`SqrtOk`), the real square root being one.
* Constants written in the code with finitely many decimals that stand for irrational numbers (golden ratio, square roots of two and three, π) are the
  exact numbers.
* `int` is `Nat` or `Int`; overflow of `int` is outside the model.
* Memory: buffers have an explicit size, and an access outside is the outcome `ub`, where a property is about memory; elsewhere buffers are functions
  of the index and the comment says so.  Failure of allocation is modelled only where the row of the claim says so (lists, clustering methods, solvers and their workspaces).  A loop without a bound takes fuel, and a loop that does not end is `ub`.
* Streams: `zFInt` and `zFDouble` of ZEDA skip spaces, commas, brackets and newlines before a number; whether they skip a slash is a parameter.

## What is not modelled

The tokenising of characters in streams (a file is a list of numbers and words), ZTK parsing, GNUPLOT helpers, `free` (leaks), C++ wrappers, the error printer,
