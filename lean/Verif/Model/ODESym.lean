import Verif.Model.ODE

/-! # Histories of the symplectic and the leapfrog method (zm_ode2.c)

The client calls the solver at times and with steps of its choice, given as a list of pairs. -/

namespace Zm.ODE
open Zm

variable {K V : Type*} [Field K] [AddCommGroup V] [Module K V]

/-- Calls of `zODE2UpdateSymplectic`, zm_ode2.c:127-132, one after the other: displacement and velocity. -/
def symRun (f : K → V → V → V) : List (K × K) → V × V → V × V
  | [], y => y
  | c :: cs, y => symRun f cs (zODE2UpdateSymplectic f c.1 y.1 y.2 c.2)

/-- `zODE2InitHistoryLeapfrog`, zm_ode2.c:152-155: displacement, velocity and the velocity kept. -/
def zODE2InitHistoryLeapfrog (x v : V) : V × V × V := (x, v, v)

/-- Calls of `zODE2UpdateLeapfrog`, zm_ode2.c:165-175, one after the other: displacement, velocity and the velocity kept. -/
def leapRun (f : K → V → V → V) : List (K × K) → V × V × V → V × V × V
  | [], y => y
  | c :: cs, y => leapRun f cs (zODE2UpdateLeapfrog f c.1 y.1 y.2.1 y.2.2 c.2)

end Zm.ODE
