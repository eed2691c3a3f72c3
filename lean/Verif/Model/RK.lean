import Mathlib.Algebra.Module.LinearMap.Defs
import Mathlib.Algebra.Field.Basic

/-!
# Model of the explicit time steppers

Covers `include/mini/temporal/ode.hpp` (the `System` interface, `Constant`, `Euler`) and
`include/mini/temporal/rk.hpp` (`RungeKutta<1>`, `<2>`, `<3>`).

A `System` is modelled by its residual function `R : time → column → column` and a state holding
what the four virtual calls can see: the time last set and the solution column last set.
Columns live in an arbitrary module over a field; rounding is not modelled.
-/

namespace MiniCFD.RK

variable {K V : Type*} [Field K] [AddCommGroup V] [Module K V]

/-- The state behind a `System<Scalar> *` (ode.hpp:16-46): `time` is what `SetTime` (ode.hpp:25)
stored, `sol` what `SetSolutionColumn` (ode.hpp:31) stored.  `evals` is a ghost log: the
`(time, column)` pairs at which `GetResidualColumn` (ode.hpp:45) has been called. -/
structure Sys (K V : Type*) where
  time : K
  sol : V
  evals : List (K × V)

/-- `System::SetTime`, ode.hpp:25. -/
def Sys.setTime (s : Sys K V) (t : K) : Sys K V := { s with time := t }

/-- `System::SetSolutionColumn`, ode.hpp:31. -/
def Sys.setSol (s : Sys K V) (u : V) : Sys K V := { s with sol := u }

/-- `System::GetResidualColumn`, ode.hpp:45: evaluated at the stored time and column. -/
def Sys.residual (R : K → V → V) (s : Sys K V) : V × Sys K V :=
  (R s.time s.sol, { s with evals := s.evals ++ [(s.time, s.sol)] })

/-- The residual of `Constant` (ode.hpp:53-84): `SetTime` is a no-op and the residual is `a_ * u_`.
`A` is the action of the matrix on columns. -/
def constant (A : V →ₗ[K] V) : K → V → V := fun _ u => A u

/-- `Euler::NextSolution`, ode.hpp:119-126: set the time, copy the solution, add `residual * dt`;
the system's own solution is left alone. -/
def nextSolution (R : K → V → V) (t dt : K) (s : Sys K V) : V × Sys K V :=
  let s := s.setTime t
  let u := s.sol
  let (r, s) := s.residual R
  (u + dt • r, s)

/-- `Euler::Update`, ode.hpp:128-131. -/
def eulerUpdate (R : K → V → V) (t dt : K) (s : Sys K V) : Sys K V :=
  let (u, s) := nextSolution R t dt s
  s.setSol u

/-- `RungeKutta<1>::Update`, rk.hpp:22-24. -/
def update1 (R : K → V → V) (t dt : K) (s : Sys K V) : Sys K V := eulerUpdate R t dt s

/-- `RungeKutta<2>::Update`, rk.hpp:36-43. -/
def update2 (R : K → V → V) (t dt : K) (s : Sys K V) : Sys K V :=
  let u0 := s.sol
  let s := eulerUpdate R t dt s
  let (u, s) := nextSolution R (t + dt) dt s
  let u := u + u0
  let u := (2⁻¹ : K) • u
  s.setSol u

/-- `RungeKutta<3>::Update`, rk.hpp:55-72. -/
def update3 (R : K → V → V) (t dt : K) (s : Sys K V) : Sys K V :=
  let u0 := s.sol
  let s := eulerUpdate R t dt s
  let u := (3 : K) • u0
  let (v, s) := nextSolution R (t + dt) dt s
  let u := u + v
  let u := (4 : K)⁻¹ • u
  let s := s.setSol u
  let (u, s) := nextSolution R (t + dt / 2) dt s
  let u := (2 : K) • u
  let u := u + u0
  let u := (3 : K)⁻¹ • u
  s.setSol u

/-- The three specialisations of `RungeKutta<kOrders, Scalar>`, rk.hpp:10-73. -/
inductive Stepper
  | rk1
  | rk2
  | rk3

/-- Dispatch on the template argument `kOrders`. -/
def update : Stepper → (K → V → V) → K → K → Sys K V → Sys K V
  | .rk1 => update1
  | .rk2 => update2
  | .rk3 => update3

/-- The driver loop of the demos (demo/linear/single.cpp:229-231 and siblings), without the output:
`n` calls of `Update` with a fixed `dt`, the `i`-th (from zero) at time `t + dt * i`. -/
def run (k : Stepper) (R : K → V → V) (t dt : K) : Nat → Sys K V → Sys K V
  | 0, s => s
  | n + 1, s => update k R (t + dt * n) dt (run k R t dt n s)

end MiniCFD.RK
