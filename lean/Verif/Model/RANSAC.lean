import Verif.Base.Res
import Mathlib.Algebra.Order.Field.Basic

/-!
# Random sample consensus (zm_mva_ransac.c)

A list of samples is a `List`; its cells are moved, never copied.  The random numbers are an arbitrary sequence: the
`k`-th draw among `m` is `rnd k m`, and a draw outside of the list is undefined.  The fit and the error are arbitrary
functions; the fit may depend on what its destination held before.  Allocation does not fail.
-/

namespace Zm.RANSAC

variable {K P Q : Type*} [Field K] [LinearOrder K]

/-- The loop of `_zRANSACSelectRandom`, zm_mva_ransac.c:20-25: `n` more cells are moved to `sel`. -/
def selectLoop (rnd : Nat → Nat → Nat) : Nat → Nat → List P → List P → Res (List P × List P × Nat)
  | 0, k, sample, sel => .ok (sample, sel, k)
  | n+1, k, sample, sel =>
    match sample[rnd k sample.length]? with
    | none => .ub
    | some p => selectLoop rnd n (k+1) (sample.eraseIdx (rnd k sample.length)) (p :: sel)

/-- `_zRANSACSelectRandom`, zm_mva_ransac.c:10-27.  A negative `n` selects nothing. -/
def selectRandom (rnd : Nat → Nat → Nat) (n : Int) (k : Nat) (sample : List P) : Res (List P × List P × Nat) :=
  if n > sample.length then .fail else selectLoop rnd n.toNat k sample []

/-- `_zRANSACCountInlier`, zm_mva_ransac.c:30-39. -/
def countInlier (err : Q → P → K) (th : K) (q : Q) : List P → Nat → Nat
  | [], count => count
  | p :: l, count => countInlier err th q l (if |err q p| < th then count + 1 else count)

/-- `_zRANSACSelectInlier`, zm_mva_ransac.c:42-56: the samples that stay and the inliers. -/
def selectInlier (err : Q → P → K) (th : K) (q : Q) : List P → List P → List P → List P × List P
  | [], stay, inl => (stay.reverse, inl)
  | p :: l, stay, inl => if |err q p| < th then selectInlier err th q l stay (p :: inl) else selectInlier err th q l (p :: stay) inl

/-- What the loop of trials changes. -/
structure St (P Q : Type*) where
  sample : List P
  q : Q
  qt : Q
  count : Nat
  k : Nat

/-- The trials, zm_mva_ransac.c:68-76; `nt` more of them. -/
def trials (rnd : Nat → Nat → Nat) (fit : Q → List P → Q) (err : Q → P → K) (ns : Int) (th : K) : Nat → St P Q → Res (St P Q)
  | 0, s => .ok s
  | nt+1, s =>
    match selectRandom rnd ns s.k s.sample with
    | .fail => .ok s
    | .ub => .ub
    | .ok (rest, sel, k) =>
      let qt := fit s.qt sel
      let sample := sel ++ rest
      let count := countInlier err th qt sample 0
      if count > s.count then trials rnd fit err ns th nt ⟨sample, qt, qt, count, k⟩
      else trials rnd fit err ns th nt ⟨sample, s.q, qt, s.count, k⟩

/-- `zRANSACSaveInlier`, zm_mva_ransac.c:59-82: the parameters, the samples left and the inliers.  `z` is the vector of zeros. -/
def zRANSACSaveInlier (rnd : Nat → Nat → Nat) (fit : Q → List P → Q) (err : Q → P → K) (z : Q) (ns nt : Int) (th : K) (q : Q) (sample : List P) :
    Res (Q × List P × List P) :=
  match trials rnd fit err ns th nt.toNat ⟨sample, q, z, 0, 0⟩ with
  | .ok s =>
    let r := selectInlier err (th * 2) s.q s.sample [] []
    .ok (fit s.q r.2, r.1, r.2)
  | .fail => .fail
  | .ub => .ub

/-- `zRANSAC`, zm_mva_ransac.c:85-92. -/
def zRANSAC (rnd : Nat → Nat → Nat) (fit : Q → List P → Q) (err : Q → P → K) (z : Q) (ns nt : Int) (th : K) (q : Q) (sample : List P) :
    Res (Q × List P) :=
  match zRANSACSaveInlier rnd fit err z ns nt th q sample with
  | .ok (q, sample, inlier) => .ok (q, inlier ++ sample)
  | .fail => .fail
  | .ub => .ub

end Zm.RANSAC
