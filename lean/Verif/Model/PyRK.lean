import Verif.Model.RK

/-!
# Model of the Python time steppers

Covers `python/temporal.py` (`ExplicitEuler`, `RungeKutta(order)` for the orders 1 to 4) and the
`OdeSystem` interface of `python/concept.py:1024-1047`.

The state behind an `OdeSystem` is the one of `Model/RK.lean` (time last set, column last set, log of
the residual evaluations).  Storing a column passes it through `limit`, which is what
`FiniteElement.set_solution_column` (python/spatial.py:87-96) does with `apply_limiter`; a plain
system has `limit = id`.

The steppers add in place to the array they get from `get_solution_column`.  The interface promises a
copy (concept.py:1034-1036), and the implementations do copy (spatial.py:98-107,
test_temporal.py:26-27 and 55-56), so columns are values here.  Rounding is not modelled.
-/

namespace MiniCFD.PyRK
open MiniCFD.RK (Sys)

variable {K V : Type*} [Field K] [AddCommGroup V] [Module K V]

/-- `OdeSystem.set_solution_column`, concept.py:1028-1031 and spatial.py:87-96. -/
def store (limit : V → V) (s : Sys K V) (u : V) : Sys K V := s.setSol (limit u)

/-- `ExplicitEuler.u_next`, temporal.py:10-16. -/
def uNext (R : K → V → V) (dt t : K) (s : Sys K V) : V × Sys K V :=
  let s := s.setTime t
  let uCurr := s.sol
  let (r, s) := s.residual R
  (uCurr + dt • r, s)

/-- `ExplicitEuler.update`, temporal.py:18-20. -/
def euler (limit : V → V) (R : K → V → V) (dt t : K) (s : Sys K V) : Sys K V :=
  let (u, s) := uNext R dt t s
  store limit s u

/-- `RungeKutta._rk1_update`, temporal.py:46-48. -/
def rk1 (limit : V → V) (R : K → V → V) (dt t : K) (s : Sys K V) : Sys K V := euler limit R dt t s

/-- `RungeKutta._rk2_update`, temporal.py:50-61. -/
def rk2 (limit : V → V) (R : K → V → V) (dt t : K) (s : Sys K V) : Sys K V :=
  let uCurr := s.sol
  let s := euler limit R dt t s
  let tTemp := t + dt
  let (u, s) := uNext R dt tTemp s
  let u := u + uCurr
  let u := (2 : K)⁻¹ • u
  store limit s u

/-- `RungeKutta._rk3_update`, temporal.py:63-82. -/
def rk3 (limit : V → V) (R : K → V → V) (dt t : K) (s : Sys K V) : Sys K V :=
  let uCurr := s.sol
  let s := euler limit R dt t s
  let tTemp := t + dt
  let (u, s) := uNext R dt tTemp s
  let u := u + (3 : K) • uCurr
  let u := (4 : K)⁻¹ • u
  let s := store limit s u
  let tTemp := t + dt / 2
  let (u, s) := uNext R dt tTemp s
  let u := (2 : K) • u
  let u := u + uCurr
  let u := (3 : K)⁻¹ • u
  store limit s u

/-- `RungeKutta._rk4_update`, temporal.py:84-109. -/
def rk4 (limit : V → V) (R : K → V → V) (dt t : K) (s : Sys K V) : Sys K V :=
  let s := s.setTime t
  let u04 := s.sol
  let (r04, s) := s.residual R
  let u14 := u04 + (2 : K)⁻¹ • (dt • r04)
  let s := store limit s u14
  let s := s.setTime (t + dt / 2)
  let (r14, s) := s.residual R
  let u24 := u04 + (2 : K)⁻¹ • (dt • r14)
  let s := store limit s u24
  let s := s.setTime (t + dt / 2)
  let (r24, s) := s.residual R
  let u34 := u04 + dt • r24
  let s := store limit s u34
  let s := s.setTime (t + dt)
  let (r34, s) := s.residual R
  let du := r04 + r34
  let du := du + (2 : K) • (r14 + r24)
  let du := (dt / 6) • du
  store limit s (u04 + du)

/-- `RungeKutta.update`, temporal.py:32-44: dispatch on the order, then set the clock to the end of
the step.  An order outside 1..4 never gets here because `__init__` (temporal.py:28-30) asserts it:
`none`. -/
def update (order : Nat) (limit : V → V) (R : K → V → V) (dt t : K) (s : Sys K V) :
    Option (Sys K V) :=
  match order with
  | 1 => some ((rk1 limit R dt t s).setTime (t + dt))
  | 2 => some ((rk2 limit R dt t s).setTime (t + dt))
  | 3 => some ((rk3 limit R dt t s).setTime (t + dt))
  | 4 => some ((rk4 limit R dt t s).setTime (t + dt))
  | _ => none

/-- Consecutive calls of `update` with the given step sizes, the clock being carried along as in
`solve_and_write` (solver.py:238-254). -/
def march (order : Nat) (limit : V → V) (R : K → V → V) : List K → K → Sys K V → Option (Sys K V)
  | [], _, s => some s
  | dt :: dts, t, s => (update order limit R dt t s).bind fun s => march order limit R dts (t + dt) s

end MiniCFD.PyRK
