import Verif.Model.PyDG

/-!
# Model of the flux reconstruction schemes of python/element.py and spatial.py

Equations, Riemann solvers, cells, faces and grids as in `Verif.Model.PyDG`.  `LegendreFR` cannot be
instantiated (it lacks `get_interior_residual`): `none`.  `get_dissipation_matrices` is in `Verif.Model.PyDissipation`.
-/

namespace MiniCFD.PyFR
open MiniCFD.PyQuad MiniCFD.PyExpansion MiniCFD.PyDG

/-- The polynomials that `add_correction_function` can get, polynomial.py. -/
inductive Correction where
  | radau (degree : Nat)
  | vincent (v : PyPoly.Vincent)
  | huynh (degree : Nat) (coeff : Fin (degree + 1) → ℝ)

/-- `local_to_value`. -/
noncomputable def Correction.value : Correction → ℝ → ℝ × ℝ
  | radau d, x => PyPoly.radauValue d x
  | vincent v, x => v.value x
  | huynh _ coeff, x => PyPoly.huynhValue coeff x

/-- `local_to_gradient`. -/
noncomputable def Correction.gradient : Correction → ℝ → ℝ × ℝ
  | radau d, x => PyPoly.radauGradient d x
  | vincent v, x => v.gradient x
  | huynh _ coeff, x => PyPoly.huynhGradient coeff x

/-- `degree`, polynomial.py:29-30, 100-101 and 155-156. -/
def Correction.degree : Correction → Nat
  | radau d => d
  | vincent v => v.k + 1
  | huynh d _ => d

/-- `FluxReconstruction.add_correction_function`, element.py:182-184: the attribute `_correction` of an
element of degree `p`, `None` before the call. -/
def addCorrection (p : Nat) (g : Correction) : Option Correction :=
  if g.degree = p + 1 then some g else none

section
variable {p : Nat} {V : Type*} [AddCommGroup V] [Module ℝ V]

/-- `get_correction_gradients`, element.py:186-194. -/
noncomputable def correctionGradients (g : Correction) (s : Setup p) (x : ℝ) : ℝ × ℝ :=
  let xLocal := s.coordinate.globalToLocal x
  let (left, right) := g.gradient xLocal
  let jacobian := s.coordinate.localToJacobian xLocal
  (left / jacobian, right / jacobian)

/-- `f_sample`: the flux from the values and gradients at a node, element.py:249-251 and 404-409. -/
noncomputable def nodeFlux (ph : Physics V) (c : Cell p V) (j : Fin (p + 1)) : V :=
  dgFlux ph c (c.setup.points j) (nodeDerivatives c.setup c.state j 0) (nodeDerivatives c.setup c.state j 1)

/-- `LagrangeFR.get_dg_flux_gradient`, element.py:241-254. -/
noncomputable def dgFluxGradient (ph : Physics V) (c : Cell p V) (x : ℝ) : V :=
  ∑ j, c.setup.basisGradients x j • nodeFlux ph c j

/-- `get_interior_residual`, element.py:256-264 and 398-413. -/
noncomputable def interior (ph : Physics V) (c : Cell p V) (i : Fin (p + 1)) : V :=
  match c.setup.kind with
  | .uniform => -dgFluxGradient ph c (c.setup.points i)
  | _ => -∑ j, nodeBasisDerivatives c.setup i 1 j • nodeFlux ph c j

/-- `left_flux_gap` and `right_flux_gap`, element.py:280-283 and 418-423. -/
noncomputable def gaps (ph : Physics V) (c : Cell p V) (leftFlux rightFlux : V) : V × V :=
  let e := c.setup
  match e.kind with
  | .uniform =>
    (leftFlux - dgFluxAt ph c e.coordinate.xLeft, rightFlux - dgFluxAt ph c e.coordinate.xRight)
  | _ =>
    (leftFlux - dgFlux ph c e.coordinate.xLeft (boundaryDerivatives e c.state 0 true)
        (boundaryDerivatives e c.state 1 true),
      rightFlux - dgFlux ph c e.coordinate.xRight (boundaryDerivatives e c.state 0 false)
        (boundaryDerivatives e c.state 1 false))

/-- The residual of one element in `get_residual_column`, spatial.py:147-158: `get_interior_residual`,
`add_interface_residual` (element.py:278-290 and 415-429), no interface correction (concept.py:748-751,
element.py:431-433), no mass matrix (element.py:228-229).  Without correction function the gradients of
`None` are asked for. -/
noncomputable def cellResidual (ph : Physics V) (g : Option Correction) (c : Cell p V) (f : FaceData V) :
    Option (Fin (p + 1) → V) :=
  match c.setup.kind, g with
  | .modal, _ => none
  | _, none => none
  | _, some g => some fun i =>
    let residual := interior ph c i
    let (leftGap, rightGap) := gaps ph c f.leftFlux f.rightFlux
    let (left, right) := correctionGradients g c.setup (c.setup.points i)
    let residual := residual - left • leftGap
    residual - right • rightGap

/-- `LagrangeFR.get_fr_flux`, element.py:231-239. -/
noncomputable def frFlux (ph : Physics V) (g : Correction) (c : Cell p V) (x : ℝ) (leftFlux rightFlux : V) : V :=
  let flux := dgFluxAt ph c x
  let xLocal := c.setup.coordinate.globalToLocal x
  let (left, right) := g.value xLocal
  let flux := flux + left • (leftFlux - dgFluxAt ph c c.setup.coordinate.xLeft)
  flux + right • (rightFlux - dgFluxAt ph c c.setup.coordinate.xRight)

/-- `LagrangeFR.get_fr_flux_gradient`, element.py:266-276. -/
noncomputable def frFluxGradient (ph : Physics V) (g : Correction) (c : Cell p V) (x : ℝ)
    (leftFlux rightFlux : V) : V :=
  let leftGap := leftFlux - dgFluxAt ph c c.setup.coordinate.xLeft
  let rightGap := rightFlux - dgFluxAt ph c c.setup.coordinate.xRight
  let gradient := dgFluxGradient ph c x
  let (left, right) := correctionGradients g c.setup x
  let gradient := gradient + left • leftGap
  gradient + right • rightGap

/-- The part of `get_residual_column` that belongs to element `i`, spatial.py:134-160; the correction
function is the one of `FluxReconstruction.add_correction_function`, spatial.py:258-261. -/
noncomputable def residual {n : Nat} (ph : Physics V) (g : Option Correction) (grid : Grid p n V)
    (i : Fin (n + 2)) : Option (Fin (p + 1) → V) :=
  cellResidual ph g (grid.cells i) (faceData ph grid i)

end

end MiniCFD.PyFR
