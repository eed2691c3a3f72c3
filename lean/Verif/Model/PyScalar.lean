import Mathlib.Data.Real.Basic
import Mathlib.Data.Matrix.Mul
import Mathlib.LinearAlgebra.Matrix.NonsingularInverse

/-!
# Model of the scalar equations of the Python code, their Riemann solvers, and coupled systems

Covers `LinearAdvection`, `LinearAdvectionDiffusion`, `InviscidBurgers`, `Coupled` of
python/equation.py:7-165 and python/riemann.py:101-197, with what they inherit from
`riemann.Solver` (riemann.py:11-52) and from `ScalarEquation`, `EquationSystem`
(python/concept.py:387-441).  Rounding is not modelled.

`equation.Burgers` (equation.py:75-95) is not modelled: its constructor passes one argument too many
to the one of `InviscidBurgers` and raises for every input.
-/

namespace MiniCFD.PyScalar

/-- `ScalarEquation` as the solvers below use it. -/
structure Equation where
  /-- `get_convective_flux` -/
  flux : ℝ → ℝ
  /-- `get_convective_speed` -/
  speed : ℝ → ℝ
  /-- `get_diffusive_coeff` -/
  coeff : ℝ → ℝ

/-- `LinearAdvectionDiffusion(a, b)`, equation.py:30-48; `LinearAdvection(a)`, equation.py:7-28, is
the case `b = 0` (concept.py:365-368). -/
def linear (a b : ℝ) : Equation := ⟨fun u => a * u, fun _ => a, fun _ => b⟩

/-- `InviscidBurgers(k)`, equation.py:51-72.  The constructor asserts `k > 0`. -/
noncomputable def burgers (k : ℝ) : Equation := ⟨fun u => k * u ^ 2 / 2, fun u => k * u, fun _ => 0⟩

/-- `ScalarEquation.get_diffusive_flux`, concept.py:402-403. -/
def Equation.diffusiveFlux (e : Equation) (u du nu : ℝ) : ℝ := (e.coeff u + nu) * du

/-- `ScalarEquation.get_convective_radius`, concept.py:399-400. -/
noncomputable def Equation.radius (e : Equation) (u : ℝ) : ℝ := |e.speed u|

/-- A Riemann solver of a scalar equation: `value left right slope` is `_get_value(slope)` after
`set_initial(left, right)`. -/
structure Solver where
  eq : Equation
  value : ℝ → ℝ → ℝ → ℝ

open scoped Classical in
/-- `LinearAdvection._get_value`, riemann.py:113-117; also of `LinearAdvectionDiffusion`. -/
noncomputable def linearSolver (a b : ℝ) : Solver where
  eq := linear a b
  value left right slope := if slope ≤ (linear a b).speed 0 then left else right

open scoped Classical in
/-- `InviscidBurgers._determine_wave_structure`, riemann.py:138-148: `_slope_left, _slope_right`. -/
noncomputable def burgersSlopes (k left right : ℝ) : ℝ × ℝ :=
  if left ≤ right then ((burgers k).speed left, (burgers k).speed right)
  else
    let mean := (left + right) / 2
    let slope := (burgers k).speed mean
    (slope, slope)

open scoped Classical in
/-- `InviscidBurgers._get_value`, riemann.py:150-157. -/
noncomputable def burgersValue (k left right slope : ℝ) : ℝ :=
  let s := burgersSlopes k left right
  if slope ≤ s.1 then left
  else if slope ≥ s.2 then right
  else
    let q := (s.2 - s.1) / (right - left)
    slope / q

/-- `riemann.InviscidBurgers(k)`, riemann.py:130-157. -/
noncomputable def burgersSolver (k : ℝ) : Solver := ⟨burgers k, burgersValue k⟩

open scoped Classical in
/-- `Solver.get_value`, riemann.py:32-39, after `set_initial(left, right)` (riemann.py:21-24).
Times are not negative. -/
noncomputable def Solver.getValue (s : Solver) (left right x t : ℝ) : ℝ :=
  if t = 0 then (if x ≤ 0 then left else right) else s.value left right (x / t)

/-- `Solver.get_upwind_flux`, riemann.py:46-52. -/
noncomputable def Solver.upwindFlux (s : Solver) (left right : ℝ) : ℝ :=
  s.eq.flux (s.getValue left right 0 1)

/-! ### Coupled systems -/

abbrev Vec := Fin 2 → ℝ
abbrev Mat := Matrix (Fin 2) (Fin 2) ℝ

/-- `equation.Coupled`, equation.py:97-111: `L` is `np.linalg.inv(R)`, which raises for a singular
matrix, so that all theorems on it suppose `R` regular. -/
structure Coupled where
  e0 : Equation
  e1 : Equation
  R : Mat

namespace Coupled
open Matrix

/-- `_L`, equation.py:109. -/
noncomputable def L (c : Coupled) : Mat := c.R⁻¹

/-- `_A_0`, equation.py:110. -/
noncomputable def A0 (c : Coupled) : Mat := Matrix.of fun i j => c.R i 0 * c.L 0 j

/-- `_A_1`, equation.py:111. -/
noncomputable def A1 (c : Coupled) : Mat := Matrix.of fun i j => c.R i 1 * c.L 1 j

/-- `to_characteristics`, concept.py:435-437 with `get_convective_eigmats`, equation.py:126-127. -/
noncomputable def toChar (c : Coupled) (U : Vec) : Vec := c.L *ᵥ U

/-- `from_characteristics`, concept.py:439-441. -/
def fromChar (c : Coupled) (V : Vec) : Vec := c.R *ᵥ V

/-- `get_convective_eigvals`, equation.py:129-133. -/
noncomputable def eigvals (c : Coupled) (U : Vec) : Vec :=
  let V := c.toChar U
  ![c.e0.speed (V 0), c.e1.speed (V 1)]

/-- `get_convective_jacobian`, equation.py:122-124. -/
noncomputable def jacobian (c : Coupled) (U : Vec) : Mat :=
  let lam := c.eigvals U
  lam 0 • c.A0 + lam 1 • c.A1

/-- `get_convective_flux`, equation.py:135-139. -/
noncomputable def flux (c : Coupled) (U : Vec) : Vec :=
  let V := c.toChar U
  c.R *ᵥ ![c.e0.flux (V 0), c.e1.flux (V 1)]

/-- `get_diffusive_coeff`, equation.py:141-145. -/
noncomputable def coeff (c : Coupled) (U : Vec) : Mat :=
  let V := c.toChar U
  c.e0.coeff (V 0) • c.A0 + c.e1.coeff (V 1) • c.A1

/-- `get_diffusive_flux`, equation.py:147-154. -/
noncomputable def diffusiveFlux (c : Coupled) (U dU nu : Vec) : Vec :=
  let V := c.toChar U
  let dV := c.toChar dU
  c.R *ᵥ ![c.e0.diffusiveFlux (V 0) (dV 0) (nu 0), c.e1.diffusiveFlux (V 1) (dV 1) (nu 1)]

end Coupled

/-- `riemann.Coupled`, riemann.py:169-197. -/
structure CoupledSolver where
  s0 : Solver
  s1 : Solver
  R : Mat

namespace CoupledSolver

/-- The equation built by the constructor, riemann.py:173-177. -/
def eq (s : CoupledSolver) : Coupled := ⟨s.s0.eq, s.s1.eq, s.R⟩

/-- `_get_value`, riemann.py:193-197, after `set_initial` (riemann.py:182-187). -/
noncomputable def value (s : CoupledSolver) (left right : Vec) (slope : ℝ) : Vec :=
  let vl := s.eq.toChar left
  let vr := s.eq.toChar right
  let v0 := s.s0.value (vl 0) (vr 0) slope
  let v1 := s.s1.value (vl 1) (vr 1) slope
  s.eq.fromChar ![v0, v1]

open scoped Classical in
/-- `get_value`, riemann.py:32-39 as inherited: `_value_left` and `_value_right` are those of the
constructor, `None`, because `Coupled.set_initial` (riemann.py:182-187) does not set them.  `none`
stands for `None`. -/
noncomputable def getValue (s : CoupledSolver) (left right : Vec) (x t : ℝ) : Option Vec :=
  if t = 0 then none else some (s.value left right (x / t))

/-- `get_upwind_flux`, riemann.py:46-52. -/
noncomputable def upwindFlux (s : CoupledSolver) (left right : Vec) : Option Vec :=
  (s.getValue left right 0 1).map s.eq.flux

end CoupledSolver

end MiniCFD.PyScalar
