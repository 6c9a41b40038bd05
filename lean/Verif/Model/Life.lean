import Verif.Base.Res

/-!
# Creation and destruction of solvers (zm_ode*.c, zm_ode2.c, zm_opt_dm.c, zm_nle_dm.c, zm_vec_ring.c, zm_vec_array.c)

What is modelled is which blocks are allocated and freed, how large they are and which fields refer to them.  A block is a vector, a matrix, an index, a workspace or an array of pointers; the two or three blocks that make a vector or a matrix count as one.
Which allocations succeed is arbitrary.  The functions that the solvers keep are not modelled.
-/

namespace Zm.Life
open Zm

/-- A pointer; `junk` is one without a value. -/
inductive Ptr where
  | junk
  | null
  | ptr (i : Nat)
deriving DecidableEq

/-- The heap: numbers of live blocks and the size of each block. -/
structure Heap where
  next : Nat := 0
  live : List Nat := []
  size : Nat → Int := fun _ => 0

/-- A field of a structure, with an index for arrays. -/
abbrev Fld := String × Nat

/-- The fields, the heap, and the vectors filled with coefficients. -/
structure St where
  p : Fld → Ptr := fun _ => .junk
  h : Heap := {}
  filled : List Fld := []

/-- `zVecAlloc` (zm_vec.c:31-45), `zMatAlloc`, `zAlloc`, `zIndexCreate`: null for sizes that are not positive and where the allocation fails. -/
def alloc (avail : Nat → Bool) (size : Int) (h : Heap) : Ptr × Heap :=
  if 0 < size ∧ avail h.next then (.ptr h.next, ⟨h.next + 1, h.next :: h.live, fun i => if i = h.next then size else h.size i⟩)
  else (.null, { h with next := h.next + 1 })

/-- Assignment to a field. -/
def St.put (s : St) (f : Fld) (v : Ptr) : St := { s with p := fun g => if g = f then v else s.p g }

/-- A null pointer or not; a pointer without a value must not be looked at. -/
def Ptr.isPtr : Ptr → Bool
  | .ptr _ => true
  | _ => false

/-- `f = alloc( size )`: success and the state. -/
def allocF (avail : Nat → Bool) (f : Fld) (size : Int) (s : St) : Bool × St :=
  let a := alloc avail size s.h
  (a.1.isPtr, { (s.put f a.1) with h := a.2 })

/-- `!( f1 = alloc( .. ) ) || !( f2 = alloc( .. ) ) || ..`: stops at the first failure. -/
def chain (avail : Nat → Bool) : List (Fld × Int) → St → Bool × St
  | [], s => (true, s)
  | (f, n) :: r, s => let a := allocF avail f n s; if a.1 then chain avail r a.2 else (false, a.2)

/-- `f1 = alloc( .. ); f2 = alloc( .. ); ..` and a test afterwards whether all succeeded. -/
def each (avail : Nat → Bool) : List (Fld × Int) → St → Bool × St
  | [], s => (true, s)
  | (f, n) :: r, s => let a := allocF avail f n s; let b := each avail r a.2; (a.1 && b.1, b.2)

/-- The fields of a structure cleared by `zAlloc`. -/
def clear (fs : List Fld) (s : St) : St := { s with p := fun g => if g ∈ fs then .null else s.p g }

/-- `zVecFree` (zm_vec.c:61-66), `zMatFree`, `zFree`, `zIndexFree`: nothing for null; undefined without a value or twice. -/
def freeF (f : Fld) (s : St) : Res St :=
  match s.p f with
  | .junk => .ub
  | .null => .ok s
  | .ptr i => if i ∈ s.h.live then .ok { s with h := { s.h with live := s.h.live.erase i } } else .ub

/-- `zVecFreeAtOnce`, zm_vec.c:69-79, and sequences of releases. -/
def freeAll : List Fld → St → Res St
  | [], s => .ok s
  | f :: r, s => (freeF f s).bind (freeAll r)

/-! ## Rings and arrays of vectors -/

/-- The vectors of a ring or an array of `num`. -/
def elems (name : String) (num : Nat) : List Fld := (List.range num).map fun i => (name, i)

/-- `zVecRingFree`, zm_vec_ring.c:25-33, and `zVecArrayFree`, zm_vec_array.c:25-33. -/
def ringFree (name : String) (num : Nat) (s : St) : Res St :=
  (freeAll (elems name num) s).bind (freeF (name ++ ".buf", 0))

/-- The loop of `zVecRingAlloc`, zm_vec_ring.c:15-20, over the remaining vectors. -/
def ringLoop (avail : Nat → Bool) (name : String) (num : Nat) (dim : Int) : List Fld → St → Res (Bool × St)
  | [], s => .ok (true, s)
  | f :: r, s =>
    let a := allocF avail f dim s
    if a.1 then ringLoop avail name num dim r a.2 else (ringFree name num a.2).bind fun s => .ok (false, s)

/-- `zVecRingAlloc`, zm_vec_ring.c:10-22, and `zVecArrayAlloc`, zm_vec_array.c:10-22: the array of pointers is cleared by `zAlloc`; where it cannot be allocated the loop writes to it all the same. -/
def ringAlloc (avail : Nat → Bool) (name : String) (dim : Int) (num : Nat) (s : St) : Res (Bool × St) :=
  let a := allocF avail (name ++ ".buf", 0) num s
  if 0 < num ∧ a.1 = false then .ub else ringLoop avail name num dim (elems name num) (clear (elems name num) a.2)

/-! ## Optimisers and solvers of equations -/

/-- The fields of `zOptDM` freed by `zOptDMDestroy`, zm_opt_dm.c:416-430. -/
def optFields : List Fld := [("_x", 0), ("_d", 0), ("_g", 0), ("_p", 0), ("_q", 0), ("_r", 0), ("_h", 0), ("_idx", 0)]

/-- `zOptDMDestroy`, zm_opt_dm.c:416-430. -/
def optDestroy (s : St) : Res St := freeAll optFields s

/-- `zOptDMCreate`, zm_opt_dm.c:337-363, with an evaluator. -/
def optCreate (avail : Nat → Bool) (dim : Int) (s : St) : Res (Bool × St) :=
  let a := each avail [(("_x", 0), dim), (("_d", 0), dim), (("_g", 0), dim), (("_p", 0), dim), (("_q", 0), dim), (("_r", 0), dim), (("_h", 0), dim * dim), (("_idx", 0), dim)] s
  if a.1 then .ok (true, a.2) else (optDestroy a.2).bind fun s => .ok (false, s)

/-- `zNLEDestroy`, zm_nle_dm.c:177-185. -/
def nleDestroy (s : St) : Res St :=
  (freeAll [("wn", 0), ("we", 0), ("_f", 0), ("_fw", 0), ("_fp", 0), ("_adg", 0), ("_prg", 0)] s).bind fun s =>
    (freeF ("_j", 0) s).bind optDestroy

/-- A failed creation, zm_nle_dm.c:155-156 and 168-169. -/
def nleFail (s : St) : Res (Bool × St) := (nleDestroy s).bind fun s => .ok (false, s)

/-- The vectors for numerical differentiation, zm_nle_dm.c:160-171; `jac` tells whether there is a function for the Jacobian matrix. -/
def nleGrad (avail : Nat → Bool) (ne : Int) (jac : Bool) (s : St) : Res (Bool × St) :=
  if jac then .ok (true, (s.put ("_adg", 0) .null).put ("_prg", 0) .null)
  else
    let a := each avail [(("_adg", 0), ne), (("_prg", 0), ne)] s
    if a.1 then .ok (true, a.2) else nleFail a.2

/-- `zNLECreate`, zm_nle_dm.c:143-175. -/
def nleCreate (avail : Nat → Bool) (nv ne : Int) (jac : Bool) (s : St) : Res (Bool × St) :=
  let a := each avail [(("wn", 0), nv), (("we", 0), ne), (("_f", 0), ne), (("_fw", 0), ne), (("_fp", 0), ne), (("_j", 0), ne * nv)] s
  if a.1 then (optCreate avail nv a.2).bind fun b => if b.1 then nleGrad avail ne jac b.2 else nleFail b.2
  else nleFail a.2

/-- The fields of a `zNLE`. -/
def nleFields : List Fld := [("wn", 0), ("we", 0), ("_f", 0), ("_fw", 0), ("_fp", 0), ("_adg", 0), ("_prg", 0), ("_j", 0)] ++ optFields

/-! ## Solvers of ordinary differential equations -/

/-- `zODECreateEuler`, zm_ode_euler.c:11-19. -/
def createEuler (avail : Nat → Bool) (dim : Int) (s : St) : Res (Bool × St) := .ok (chain avail [(("_ws", 0), dim)] s)

/-- `zODEDestroyEuler`, zm_ode_euler.c:22-26. -/
def destroyEuler (s : St) : Res St := freeAll [("_ws", 0)] s

/-- A workspace with the vectors `fs`, each of which is allocated only if the ones before it were. -/
def createWs (avail : Nat → Bool) (fs : List (Fld × Int)) (s : St) : Bool × St :=
  let a := allocF avail ("_ws", 0) 1 s
  if a.1 then chain avail fs (clear (fs.map (·.1)) a.2) else (false, a.2)

/-- `zODECreateHeun`, zm_ode_heun.c:15-30. -/
def createHeun (avail : Nat → Bool) (dim : Int) (s : St) : Res (Bool × St) :=
  .ok (createWs avail [(("x", 0), dim), (("k", 0), dim), (("k", 1), dim), (("k", 2), dim)] s)

/-- `zODEDestroyHeun`, zm_ode_heun.c:33-41. -/
def destroyHeun (s : St) : Res St := freeAll [("x", 0), ("k", 0), ("k", 1), ("k", 2), ("_ws", 0)] s

/-- `zODECreateRK4`, zm_ode_rk4.c:15-31. -/
def createRK4 (avail : Nat → Bool) (dim : Int) (s : St) : Res (Bool × St) :=
  .ok (createWs avail [(("x", 0), dim), (("k", 0), dim), (("k", 1), dim), (("k", 2), dim), (("k", 3), dim)] s)

/-- `zODEDestroyRK4`, zm_ode_rk4.c:34-42. -/
def destroyRK4 (s : St) : Res St := freeAll [("x", 0), ("k", 0), ("k", 1), ("k", 2), ("k", 3), ("_ws", 0)] s

/-- `zODECreateRKG`, zm_ode_rkg.c:16-29. -/
def createRKG (avail : Nat → Bool) (dim : Int) (s : St) : Res (Bool × St) :=
  .ok (createWs avail [(("u", 0), dim), (("v", 0), dim)] s)

/-- `zODEDestroyRKG`, zm_ode_rkg.c:32-40. -/
def destroyRKG (s : St) : Res St := freeAll [("u", 0), ("v", 0), ("_ws", 0)] s

/-- `_zODECreateERK`, zm_ode_erk.c:19-42, with `n` stages (6 for the methods of Fehlberg and of Cash and Karp, 7 for that of Dormand and Prince): the vectors of the stages are written to the array even if it could not be allocated. -/
def createERK (avail : Nat → Bool) (n : Nat) (dim : Int) (s : St) : Res (Bool × St) :=
  let a := allocF avail ("_ws", 0) 1 s
  if a.1 then
    let b := chain avail [(("_xc", 0), dim), (("_xf", 0), dim), (("k.buf", 0), n)] (clear [("_xc", 0), ("_xf", 0), ("k.buf", 0)] a.2)
    if (b.2.p ("k.buf", 0)).isPtr then
      let c := each avail ((elems "k" n).map fun f => (f, dim)) (clear (elems "k" n) b.2)
      .ok (b.1 && c.1, c.2)
    else .ub
  else .ok (false, a.2)

/-- `_zODEDestroyERK`, zm_ode_erk.c:45-57. -/
def destroyERK (n : Nat) (s : St) : Res St :=
  (freeAll [("_xc", 0), ("_xf", 0)] s).bind fun s => (freeAll (elems "k" n) s).bind (freeAll [("k.buf", 0), ("_ws", 0)])

/-- `_zODESetWeightAdams`, zm_ode_adams.c:41-61: without memory for its working vector it leaves the weights zero and reports nothing. -/
def setWeight (avail : Nat → Bool) (w : Fld) (step : Int) (s : St) : Res St :=
  let a := allocF avail ("g", 0) step s
  if a.1 then freeF ("g", 0) { a.2 with filled := w :: a.2.filled } else .ok a.2

/-- `_zODEAllocAdams`, zm_ode_adams.c:20-38. -/
def allocAdams (avail : Nat → Bool) (dim : Int) (step : Nat) (s : St) : Res (Bool × St) :=
  let a := createWs avail [(("dx", 0), dim), (("wb", 0), step), (("wm", 0), step), (("x1", 0), dim), (("x2", 0), dim)] s
  if a.1 then ringAlloc avail "hist" dim step a.2 else .ok a

/-- `zODECreateAdams`, zm_ode_adams.c:75-84. -/
def createAdams (avail : Nat → Bool) (step : Nat) (dim : Int) (s : St) : Res (Bool × St) :=
  (allocAdams avail dim step s).bind fun a =>
    if a.1 then (setWeight avail ("wb", 0) step a.2).bind fun s => (setWeight avail ("wm", 0) step s).bind fun s => .ok (true, s)
    else .ok a

/-- `zODEDestroyAdams`, zm_ode_adams.c:87-97. -/
def destroyAdams (step : Nat) (s : St) : Res St :=
  (freeAll [("dx", 0), ("wb", 0), ("wm", 0), ("x1", 0), ("x2", 0)] s).bind fun s => (ringFree "hist" step s).bind (freeF ("_ws", 0))

/-- `zODECreateBEuler`, zm_ode_beuler.c:33-49: the solver of equations is part of the workspace and therefore cleared. -/
def createBEuler (avail : Nat → Bool) (dim : Int) (s : St) : Res (Bool × St) :=
  let a := createWs avail [(("v", 0), dim), (("x", 0), dim)] s
  if a.1 then nleCreate avail dim dim false (clear nleFields a.2) else .ok a

/-- `zODEDestroyBEuler`, zm_ode_beuler.c:52-61. -/
def destroyBEuler (s : St) : Res St := (nleDestroy s).bind (freeAll [("v", 0), ("x", 0), ("_ws", 0)])

/-- `zODECreateBK4`, zm_ode_bk4.c:47-67. -/
def createBK4 (avail : Nat → Bool) (dim : Int) (s : St) : Res (Bool × St) :=
  let a := createWs avail [(("v", 0), dim), (("x", 0), dim), (("xt", 0), dim), (("k", 0), dim * 2)] s
  if a.1 then nleCreate avail (dim * 2) (dim * 2) false (clear nleFields a.2) else .ok a

/-- `zODEDestroyBK4`, zm_ode_bk4.c:70-79. -/
def destroyBK4 (s : St) : Res St := (nleDestroy s).bind (freeAll [("v", 0), ("x", 0), ("xt", 0), ("k", 0), ("_ws", 0)])

/-- The number of steps in use, zm_ode_gear.c:57-63. -/
def gearStep (step : Int) : Nat := if step < 1 then 1 else if step > 6 then 6 else step.toNat

/-- `zODECreateGear`, zm_ode_gear.c:38-76. -/
def createGear (avail : Nat → Bool) (step : Int) (dim : Int) (s : St) : Res (Bool × St) :=
  let a := createWs avail [(("v", 0), dim), (("a", 0), gearStep step)] s
  if a.1 then
    (ringAlloc avail "hist" dim (gearStep step) a.2).bind fun b =>
      if b.1 then nleCreate avail dim dim false (clear nleFields b.2) else .ok b
  else .ok a

/-- `zODEDestroyGear`, zm_ode_gear.c:79-89. -/
def destroyGear (step : Int) (s : St) : Res St :=
  (nleDestroy s).bind fun s => (freeAll [("v", 0), ("a", 0)] s).bind fun s => (ringFree "hist" (gearStep step) s).bind (freeF ("_ws", 0))

/-- `zODECreateDC`, zm_ode_dc.c:11-20, for the method `create`. -/
def createDC (avail : Nat → Bool) (create : Int → St → Res (Bool × St)) (dim : Int) (s : St) : Res (Bool × St) :=
  let a := each avail [(("_x1", 0), dim), (("_x2", 0), dim)] s
  if a.1 then create dim a.2 else .ok a

/-- `zODEDestroyDC`, zm_ode_dc.c:23-28. -/
def destroyDC (destroy : St → Res St) (s : St) : Res St := (freeAll [("_x1", 0), ("_x2", 0)] s).bind destroy

/-! ## Equations of second order -/

/-- `zODE2CreateRegular`, zm_ode2.c:23-33, for the method `create`; the fields of the two structures are distinguished by the index. -/
def createRegular (avail : Nat → Bool) (create : Int → St → Res (Bool × St)) (dim : Int) (s : St) : Res (Bool × St) :=
  (create (dim * 2) s).bind fun a => if a.1 then .ok (allocF avail ("ode2._x", 0) (dim * 2) a.2) else .ok a

/-- `zODE2DestroyRegular`, zm_ode2.c:36-42. -/
def destroyRegular (destroy : St → Res St) (s : St) : Res St := (freeF ("ode2._x", 0) s).bind destroy

/-- `zODE2CreateSymplectic`, zm_ode2.c:109-117. -/
def createSymplectic (avail : Nat → Bool) (dim : Int) (s : St) : Res (Bool × St) := .ok (allocF avail ("ode2._a", 0) dim s)

/-- `zODE2DestroySymplectic`, zm_ode2.c:120-124. -/
def destroySymplectic (s : St) : Res St := freeF ("ode2._a", 0) s

/-- `zODE2DestroyLeapfrog`, zm_ode2.c:158-162. -/
def destroyLeapfrog (s : St) : Res St := freeAll [("ode2._x", 0), ("ode2._v", 0), ("ode2._a", 0)] s

/-- `zODE2CreateLeapfrog`, zm_ode2.c:137-149. -/
def createLeapfrog (avail : Nat → Bool) (dim : Int) (s : St) : Res (Bool × St) :=
  let a := each avail [(("ode2._x", 0), dim), (("ode2._v", 0), dim), (("ode2._a", 0), dim)] s
  if a.1 then .ok (true, a.2) else (destroyLeapfrog a.2).bind fun s => .ok (false, s)

end Zm.Life
