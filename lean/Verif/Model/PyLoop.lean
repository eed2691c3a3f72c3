import Mathlib.Algebra.Order.Field.Basic
import Mathlib.Data.Rat.Cast.Defs

/-!
# Model of the time loop of the Python solver

Covers `SolverBase.solve_and_write` and `SolverBase.animate` (python/solver.py:213-301),
`SpatialScheme.suggest_delta_t` and `apply_viscosity` (python/concept.py:1135-1147),
`Element.suggest_delta_t` (concept.py:736-770 and 796-797, the branch that is taken) and
`suggest_cfl` (python/element.py:20-31 and 178-179).

The state of the scheme is its solution `u` and the artificial viscosity `nu` its elements hold.
One step of the ODE solver is an arbitrary function of both; drawing and printing are left out, and
the frames written are logged with their times.  Rounding is not modelled.
-/

namespace MiniCFD.PyLoop

variable {K U N : Type*} [Field K] [LinearOrder K]

/-- `DiscontinuousGalerkin._cfl`, element.py:20-24: the column for third order stepping, which is the
one `suggest_delta_t` uses whatever stepper runs (`self.suggest_cfl(3)`, concept.py:770).  Degrees
above eight are out of range: `none`. -/
def cflTable : List ℚ :=
  [1256/1000, 409/1000, 209/1000, 130/1000, 89/1000, 66/1000, 51/1000, 40/1000, 33/1000]

/-- `suggest_cfl(3)`, element.py:30-31 for DG and 178-179 (twice as much) for FR. -/
def cfl (fr : Bool) (p : Nat) : Option K :=
  cflTable[p]?.map fun (q : ℚ) => if fr then 2 * (q : K) else (q : K)

/-- `spatial_factor`, concept.py:741-756. -/
def factor (p : Nat) : Nat :=
  if p = 0 then 1 else if p = 1 then 4 else if p = 2 then 6 else if p = 3 then 12
  else if p = 4 then 28 else if p = 5 then 50 else if p = 6 then 90 else 3 * p ^ 2

/-- `Element._suggest_dt_by_blazek`, concept.py:736-770, the branch under `if True`: `lc` and `ld`
are the convective and diffusive radii at the average of the solution. -/
def blazek (fr : Bool) (p : Nat) (h lc ld : K) : Option K :=
  let lc := max lc ((1 / 10 ^ 16 : ℚ) : K)
  let dt := h / (lc + (factor p : K) * ld)
  (cfl fr p).map fun c => dt * c

/-- `SpatialScheme.suggest_delta_t`, concept.py:1149-1153, on the suggestions of the elements. -/
def suggest (elements : List K) (dt : K) : K := elements.foldl min dt

/-- What the loops below need to know about a scheme: the suggestions of its elements, one step of
the ODE solver (which leaves the viscosity alone), and the viscosity the model generates. -/
structure Scheme (K U N : Type*) where
  elements : U → N → List K
  step : U → N → K → K → U
  generate : U → N

/-- `apply_viscosity`, concept.py:1141-1147, when a detector and a viscosity model are set. -/
def applyViscosity (S : Scheme K U N) (u : U) (_ : N) : U × N := (u, S.generate u)

/-- The `while t_curr < t_next` loop of solver.py:237-256 (with `apply`) and of 286-295 (without),
with a bound on the number of iterations.  The log holds every call of `update`: column, viscosity,
`dt`, `t`.  `none`: still running. -/
def inner (S : Scheme K U N) (apply : Bool) (dtMax tNext : K) :
    Nat → K → U → N → Option (K × U × N × List (U × N × K × K))
  | 0, t, u, nu => if t < tNext then none else some (t, u, nu, [])
  | fuel + 1, t, u, nu =>
    if t < tNext then
      let suggested := suggest (S.elements u nu) (tNext - t)
      let dt := min dtMax suggested
      let u' := S.step u nu dt t
      let nu' := if apply then (applyViscosity S u' nu).2 else nu
      (inner S apply dtMax tNext fuel (t + dt) u' nu').map fun r =>
        (r.1, r.2.1, r.2.2.1, (u, nu, dt, t) :: r.2.2.2)
    else some (t, u, nu, [])

/-- The `for i_frame` loop of `solve_and_write`, solver.py:224-256: the frames still to be written
are counted by the argument; every frame is logged with its time and solution. -/
def frames (S : Scheme K U N) (dtMax dtPerFrame : K) (fuel : Nat) :
    Nat → K → U → N → Option (List (K × U) × List (U × N × K × K))
  | 0, t, u, _ => some ([(t, u)], [])
  | n + 1, t, u, nu =>
    (inner S true dtMax (t + dtPerFrame) fuel t u nu).bind fun r =>
      (frames S dtMax dtPerFrame fuel n r.1 r.2.1 r.2.2.1).map fun q =>
        ((t, u) :: q.1, r.2.2.2 ++ q.2)

/-- `solve_and_write`, solver.py:213-256: `u0` is the column after `initialize`, `nu0` what the
elements hold before the first `apply_viscosity`. -/
def solveAndWrite (S : Scheme K U N) (tStart tStop : K) (nStep nFrame fuel : Nat) (u0 : U) (nu0 : N) :
    Option (List (K × U) × List (U × N × K × K)) :=
  let dtMax := (tStop - tStart) / nStep
  let dtPerFrame := (tStop - tStart) / nFrame
  let s := applyViscosity S u0 nu0
  frames S dtMax dtPerFrame fuel nFrame tStart s.1 s.2

/-- The calls of `update_func` that `animate` (solver.py:258-301) has matplotlib make, one per entry
of `np.linspace(t_start, t_stop, n_frame + 1)`. -/
def animateFrom (S : Scheme K U N) (dtMax dtPerFrame tStop : K) (fuel : Nat) :
    List K → U → N → Option (List (K × U) × List (U × N × K × K))
  | [], _, _ => some ([], [])
  | t :: ts, u, nu =>
    (inner S false dtMax (min tStop (t + dtPerFrame)) fuel t u nu).bind fun r =>
      (animateFrom S dtMax dtPerFrame tStop fuel ts r.2.1 r.2.2.1).map fun q =>
        ((t, u) :: q.1, r.2.2.2 ++ q.2)

/-- `animate`, solver.py:258-301. -/
def animate (S : Scheme K U N) (tStart tStop : K) (nStep nFrame fuel : Nat) (u0 : U) (nu0 : N) :
    Option (List (K × U) × List (U × N × K × K)) :=
  let dtMax := (tStop - tStart) / nStep
  let dtPerFrame := (tStop - tStart) / nFrame
  animateFrom S dtMax dtPerFrame tStop fuel
    ((List.range (nFrame + 1)).map fun (i : Nat) => tStart + (i : K) * dtPerFrame) u0 nu0

end MiniCFD.PyLoop
