import Verif.Model.PyExpansion

/-!
# Model of the discontinuous Galerkin schemes of python/element.py, spatial.py and concept.py

An equation enters through its fluxes, a Riemann solver through `get_upwind_flux`; both are total here
(solvers that raise end the run).  The diffusive coefficient is a number.  No limiter.
-/

namespace MiniCFD.PyDG
open MiniCFD.PyQuad MiniCFD.PyExpansion

/-- The methods of `concept.Equation` and `concept.RiemannSolver` that the schemes call. -/
structure Physics (V : Type*) where
  /-- `get_convective_flux` -/
  convective : V → V
  /-- `get_diffusive_flux(u, du, nu_extra)` -/
  diffusive : V → V → ℝ → V
  /-- `get_diffusive_coeff` -/
  coefficient : V → ℝ
  /-- `inviscid` -/
  inviscid : Bool
  /-- `get_upwind_flux` -/
  upwind : V → V → V

/-- `concept.Element`.  `none` for an `_extra_viscosity` that is `None` or zero. -/
structure Cell (p : Nat) (V : Type*) where
  setup : Setup p
  state : State p V
  viscosity : Option (ℝ → ℝ)

section
variable {p : Nat} {V : Type*} [AddCommGroup V] [Module ℝ V]

/-- `Element.get_extra_viscosity`, concept.py:632-643. -/
noncomputable def Cell.extra (c : Cell p V) (x : ℝ) : ℝ :=
  match c.viscosity with
  | some nu => nu x
  | none => 0

/-- `Element.get_dg_flux` with given value and gradient, concept.py:645-661. -/
noncomputable def dgFlux (ph : Physics V) (c : Cell p V) (x : ℝ) (u du : V) : V :=
  if c.viscosity.isSome || !ph.inviscid then ph.convective u - ph.diffusive u du (c.extra x)
  else ph.convective u

/-- `get_dg_flux(x_global)`. -/
noncomputable def dgFluxAt (ph : Physics V) (c : Cell p V) (x : ℝ) : V :=
  dgFlux ph c x (c.setup.value c.state x) (taylorGradient c.setup.coordinate.xCenter c.state.taylor x)

/-- `get_interior_residual`, element.py:31-39 and 105-119. -/
noncomputable def interior (ph : Physics V) (c : Cell p V) (i : Fin (p + 1)) : V :=
  let e := c.setup
  let nodal := e.integrator.integrateIndex fun j =>
    nodeBasisDerivatives e j 1 i •
      dgFlux ph c (e.points j) (nodeDerivatives e c.state j 0) (nodeDerivatives e c.state j 1)
  let plain := e.integrator.integrate fun x => e.basisGradients x i • dgFluxAt ph c x
  match e.kind with
  | .uniform => plain
  | .modal => plain
  | .legendreRoots => nodal
  | .lobatto => nodal

/-- What the faces pass to an element: fluxes and half jumps at the left and at the right. -/
structure FaceData (V : Type*) where
  leftFlux : V
  rightFlux : V
  leftJump : V
  rightJump : V

/-- `get_interior_residual`, `add_interface_residual`, element.py:41-46, and `add_interface_correction`,
element.py:48-50 and concept.py:733-746. -/
noncomputable def load (ph : Physics V) (c : Cell p V) (f : FaceData V) (i : Fin (p + 1)) : V :=
  let residual := interior ph c i
  let residual := residual + boundaryBasisDerivatives c.setup 0 true i • f.leftFlux
  let residual := residual - boundaryBasisDerivatives c.setup 0 false i • f.rightFlux
  let correction := boundaryBasisDerivatives c.setup 1 true i • f.leftJump +
    boundaryBasisDerivatives c.setup 1 false i • f.rightJump
  residual - correction

open scoped Classical in
/-- Division of each row by a number; a zero ends in infinities or `nan`: `none`. -/
noncomputable def divideRows (weight : Fin (p + 1) → ℝ) (column : Fin (p + 1) → V) :
    Option (Fin (p + 1) → V) :=
  if ∃ k, weight k = 0 then none else some fun k => (weight k)⁻¹ • column k

open scoped Classical in
/-- `divide_mass_matrix`, element.py:63-64, 100-103 and 163-166; `numpy.linalg.solve` raises for a
singular matrix: `none`. -/
noncomputable def divideMass (s : Setup p) (column : Fin (p + 1) → V) : Option (Fin (p + 1) → V) :=
  match s.kind with
  | .uniform =>
    let mass := s.innerProducts
    if mass.det = 0 then none else some (PyExpansion.apply mass⁻¹ column)
  | .legendreRoots => divideRows s.integrator.weights column
  | .lobatto => divideRows s.integrator.weights column
  | .modal => divideRows s.modeWeight column

/-- The residual of one element in `get_residual_column`, spatial.py:147-158. -/
noncomputable def cellResidual (ph : Physics V) (c : Cell p V) (f : FaceData V) :
    Option (Fin (p + 1) → V) :=
  divideMass c.setup (load ph c f)

/-- `Solver.get_interface_gradient`, riemann.py:54-61, with the two constants of riemann.py:14. -/
noncomputable def interfaceGradient (hLeft hRight : ℝ) (uJump duMean dduJump : V) : V :=
  let deltaX := (hLeft + hRight) / 2
  let du := (3 / deltaX) • uJump
  let du := du + (1 / 12 * deltaX) • dduJump
  du + duMean

open scoped Classical in
/-- `Solver.get_interface_flux_and_bjump`, riemann.py:67-99. -/
noncomputable def interface (ph : Physics V) (l r : Cell p V) : V × V :=
  let uLeft := boundaryDerivatives l.setup l.state 0 false
  let uRight := boundaryDerivatives r.setup r.state 0 true
  let flux := ph.upwind uLeft uRight
  let extra := min (l.extra l.setup.coordinate.xRight) (r.extra r.setup.coordinate.xLeft)
  let total := extra + min (ph.coefficient uLeft) (ph.coefficient uRight)
  if total = 0 then (flux, uLeft - uLeft)
  else
    let duLeft := if 0 < p then boundaryDerivatives l.setup l.state 1 false else 0
    let dduLeft := if 1 < p then boundaryDerivatives l.setup l.state 2 false else 0
    let duRight := if 0 < p then boundaryDerivatives r.setup r.state 1 true else 0
    let dduRight := if 1 < p then boundaryDerivatives r.setup r.state 2 true else 0
    let uJump := uRight - uLeft
    let du := interfaceGradient l.setup.coordinate.length r.setup.coordinate.length uJump
      ((2 : ℝ)⁻¹ • (duLeft + duRight)) (dduRight - dduLeft)
    (flux - ph.diffusive ((2 : ℝ)⁻¹ • (uLeft + uRight)) du extra, (total / 2) • uJump)

/-- `concept.Grid`: at least two elements (concept.py:1078); `boundary` holds the values given to
`set_boundary_values`, `none` for a periodic grid. -/
structure Grid (p n : Nat) (V : Type*) where
  cells : Fin (n + 2) → Cell p V
  boundary : Option (V × V)

/-- `left_face.flux()` and `left_face.jump()` of an element after `solve`: concept.py:845-870 and
928-954, spatial.py:57-86.  The interface at the left of element 0 of a periodic grid lies between the
last element and element 0. -/
noncomputable def leftFace {n : Nat} (ph : Physics V) (g : Grid p n V) (i : Fin (n + 2)) : V × V :=
  if i = 0 then
    match g.boundary with
    | none => interface ph (g.cells (Fin.last _)) (g.cells 0)
    | some (u, _) =>
      (ph.upwind u (boundaryDerivatives (g.cells 0).setup (g.cells 0).state 0 true), (0 : ℝ) • u)
  else interface ph (g.cells (i - 1)) (g.cells i)

/-- `right_face.flux()` and `right_face.jump()`. -/
noncomputable def rightFace {n : Nat} (ph : Physics V) (g : Grid p n V) (i : Fin (n + 2)) : V × V :=
  if i = Fin.last _ then
    match g.boundary with
    | none => leftFace ph g 0
    | some (_, u) =>
      (ph.upwind (boundaryDerivatives (g.cells (Fin.last _)).setup (g.cells (Fin.last _)).state 0 false) u,
        (0 : ℝ) • u)
  else leftFace ph g (i + 1)

/-- What element `i` gets from its faces in `get_residual_column`, spatial.py:134-160. -/
noncomputable def faceData {n : Nat} (ph : Physics V) (g : Grid p n V) (i : Fin (n + 2)) : FaceData V :=
  ⟨(leftFace ph g i).1, (rightFace ph g i).1, (leftFace ph g i).2, (rightFace ph g i).2⟩

/-- The part of `get_residual_column` that belongs to element `i`, spatial.py:134-160. -/
noncomputable def residual {n : Nat} (ph : Physics V) (g : Grid p n V) (i : Fin (n + 2)) :
    Option (Fin (p + 1) → V) :=
  cellResidual ph (g.cells i) (faceData ph g i)

end

end MiniCFD.PyDG
