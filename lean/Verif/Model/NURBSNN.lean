import Verif.Model.NURBS

/-! # Nearest point of a NURBS curve

Model of `zNURBSVecNN`, src/zm_nurbs.c:272-309.  The distance `zVecDist` is a parameter. -/

namespace Zm.NURBS
open Zm

section
variable {K : Type*} [Field K] [LinearOrder K]

/-- The variables `s1`, `s2`, `dmin1` and `dmin2`, zm_nurbs.c:276-277; `none` is `HUGE_VAL`. -/
structure NN (K : Type*) where
  s1 : K
  s2 : K
  d1 : Option K
  d2 : Option K

/-- `d < dmin`, where `dmin` may be `HUGE_VAL`. -/
def ltMin (d : K) (dmin : Option K) : Bool := dmin.elim true (fun m => decide (d < m))

/-- A number that may be `HUGE_VAL`. -/
def toDbl (d : Option K) : Misc.Dbl K := d.elim (.inf false) .fin

/-- The body of the inner loop, zm_nurbs.c:295-302, for a sample at `sj` with distance `d`. -/
def nnSample (d sj : K) (st : NN K) : NN K :=
  if ltMin d st.d1 then { s1 := sj, s2 := st.s1, d1 := some d, d2 := st.d1 }
  else if ltMin d st.d2 then { st with s2 := sj, d2 := some d }
  else st

variable {V : Type*}

/-- The inner loop, zm_nurbs.c:289-303; `ev` evaluates the curve and `dist` is the distance from the given point. -/
def nnRound (ev : K → Res V) (dist : V → K) (st : NN K) : Res (NN K) :=
  forUpM 0 31 (fun j s =>
    let sj := (st.s2 - st.s1) * (j : K) / 30 + st.s1
    (ev sj).bind fun vs => .ok (nnSample (dist vs) sj s)) st

/-- The test of line 304. -/
def nnStop (tol : K) (st : NN K) : Bool := Misc.zEqual (.fin st.s1) (.fin st.s2) tol || Misc.zEqual (toDbl st.d1) (toDbl st.d2) tol

/-- The outer loop, zm_nurbs.c:288-305, with `n` more rounds. -/
def nnLoop (tol : K) (ev : K → Res V) (dist : V → K) : Nat → NN K → Res (NN K)
  | 0, st => .ok st
  | n+1, st => (nnRound ev dist st).bind fun st => if nnStop tol st then .ok st else nnLoop tol ev dist n st

/-- `zNURBSVecNN` from line 283 on, between the parameters `s` and `e`: the parameter returned and the point stored. -/
def nnSearch (tol : K) (ev : K → Res V) (dist : V → K) (s e : K) : Res (K × V) :=
  (nnLoop tol ev dist 10000 { s1 := s, s2 := e, d1 := none, d2 := none }).bind fun st =>
    let sj := 1/2 * (st.s1 + st.s2)
    (ev sj).bind fun nn => .ok (sj, nn)

/-- `zNURBSVecNN`, zm_nurbs.c:274-309; `alloc` tells whether the working vector could be allocated and `nn` is what the result vector held. -/
def zNURBSVecNN [AddCommGroup V] [Module K V] (tol : K) (order nc : Nat) (k w : Nat → K) (P : Nat → V) (dist : V → K) (alloc : Bool) (nn : V) :
    Res (K × V) :=
  if alloc then nnSearch tol (zNURBSVec tol order nc k w P) dist (k order) (k nc) else .ok (k order, nn)

end
end Zm.NURBS
