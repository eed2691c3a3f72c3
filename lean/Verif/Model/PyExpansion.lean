import Verif.Model.PyQuad
import Verif.Model.PyPoly
import Mathlib.LinearAlgebra.Matrix.NonsingularInverse

/-!
# Model of python/expansion.py

Real numbers for floating point numbers; values lie in a real vector space `V` (the numbers for a scalar
equation, an array for a system).  `numpy.linalg.inv` of a singular matrix raises: `none`.
`special.eval_legendre` is the recurrence of `Verif.Model.Vincent`.  Left out: `Taylor.approximate`
(numerical differentiation by `numdifftools`), `Taylor._set_taylor_coeff` and `convert_to`, which nothing
in the schemes calls.
-/

namespace MiniCFD.PyExpansion
open MiniCFD.PyQuad

/-! ### The Taylor basis -/

/-- `x_power` after `k` passes of the loops of expansion.py:162-192. -/
def xPower (dx : ℝ) : Nat → ℝ
  | 0 => 1
  | k + 1 => xPower dx k * dx

/-- `Taylor.get_basis_values`, expansion.py:162-170; `c` is `x_center()`. -/
def taylorValues (c x : ℝ) (k : Nat) : ℝ := xPower (x - c) k

/-- `Taylor.get_basis_gradients`, expansion.py:172-180. -/
def taylorGradients (c x : ℝ) (k : Nat) : ℝ := if k = 0 then 0 else k * xPower (x - c) (k - 1)

/-- `Taylor.get_basis_hessians`, expansion.py:182-192. -/
def taylorHessians (c x : ℝ) (k : Nat) : ℝ :=
  if k ≤ 1 then 0 else k * (k - 1) * xPower (x - c) (k - 2)

/-- `Taylor._factorials`, expansion.py:96-98. -/
def factorials : Nat → ℝ
  | 0 => 1
  | k + 1 => factorials k * (k + 1)

/-- `Taylor.get_basis_derivatives`, expansion.py:194-204. -/
noncomputable def taylorDerivatives (c x : ℝ) (k l : Nat) : ℝ :=
  if k = 0 then taylorValues c x l
  else if l < k then 0 else (x - c) ^ (l - k) * (factorials l / factorials (l - k))

/-! ### Setups -/

/-- The concrete classes: `LagrangeOnUniformRoots`, `LagrangeOnLegendreRoots`, `LagrangeOnLobattoRoots`,
`Legendre`. -/
inductive Kind where
  | uniform
  | legendreRoots
  | lobatto
  | modal

/-- What the constructors compute.  `toTaylor` is `_lagrange_to_taylor` or `_legendre_to_taylor`,
`fromTaylor` is `_taylor_to_lagrange` or `_taylor_to_legendre`; the nodes are local. -/
structure Setup (p : Nat) where
  kind : Kind
  coordinate : Coordinate
  integrator : Integrator p
  nodes : Fin (p + 1) → ℝ
  toTaylor : Matrix (Fin (p + 1)) (Fin (p + 1)) ℝ
  fromTaylor : Matrix (Fin (p + 1)) (Fin (p + 1)) ℝ

/-- `_sample_points`, expansion.py:285-288: both branches give the images of the nodes. -/
noncomputable def samplePoints {p : Nat} (c : Coordinate) (nodes : Fin (p + 1) → ℝ) (i : Fin (p + 1)) : ℝ :=
  c.localToGlobal (nodes i)

open scoped Classical in
/-- `Lagrange.__init__`, expansion.py:274-310 (the cache of derivatives is read through
`nodeBasisDerivatives`). -/
noncomputable def lagrange {p : Nat} (kind : Kind) (c : Coordinate) (nodes : Fin (p + 1) → ℝ)
    (rule : Rule p) : Option (Setup p) :=
  let baseRows : Matrix (Fin (p + 1)) (Fin (p + 1)) ℝ :=
    fun i k => taylorValues c.xCenter (samplePoints c nodes i) k
  if baseRows.det = 0 then none
  else some ⟨kind, c, rule.integrator c, nodes, baseRows⁻¹, baseRows⟩

/-- `LagrangeOnUniformRoots._get_local_roots`, expansion.py:416-421. -/
noncomputable def uniformRoots (p : Nat) (i : Fin (p + 1)) : ℝ :=
  let delta : ℝ := 2 / (p + 1) / 2
  Integrator.linspace (delta - 1) (1 - delta) p i

/-- `LagrangeOnUniformRoots.__init__`, expansion.py:423-428; `rule` is what `roots_legendre` returns. -/
noncomputable def onUniformRoots {p : Nat} (c : Coordinate) (rule : Rule p) : Option (Setup p) :=
  lagrange .uniform c (uniformRoots p) rule

/-- `LagrangeOnLegendreRoots.__init__`, expansion.py:441-448 and 473-484. -/
noncomputable def onLegendreRoots {p : Nat} (c : Coordinate) (rule : Rule p) : Option (Setup p) :=
  lagrange .legendreRoots c rule.x rule

/-- `LagrangeOnLobattoRoots.__init__`, expansion.py:441-448 and 505-508. -/
noncomputable def onLobattoRoots (p : Nat) (c : Coordinate) : Option (Setup p) :=
  (PyQuad.lobatto p).bind fun rule => lagrange .lobatto c rule.x rule

/-- Column `k`, row `r` of `_legendre_to_taylor` before the division, expansion.py:549-554: slices of the
unit matrix are overwritten column by column. -/
noncomputable def legendreColumn : Nat → Nat → ℝ
  | 0, r => if r = 0 then 1 else 0
  | 1, r => if r = 1 then 1 else 0
  | k + 2, r =>
    let entry : ℝ := if 1 ≤ r ∧ r < k + 3 then
        (2 * (k + 2 : ℝ) - 1) / (k + 2) * legendreColumn (k + 1) (r - 1)
      else if r = k + 2 then 1 else 0
    if r < k + 1 then entry - ((k + 2 : ℝ) - 1) / (k + 2) * legendreColumn k r else entry

open scoped Classical in
/-- `Legendre.__init__`, expansion.py:536-558. -/
noncomputable def modal {p : Nat} (c : Coordinate) (rule : Rule p) : Option (Setup p) :=
  let jacobian := c.localToJacobian 0
  let toTaylor : Matrix (Fin (p + 1)) (Fin (p + 1)) ℝ :=
    fun r k => if (r : Nat) = 0 then legendreColumn k r else legendreColumn k r / jacobian ^ (r : Nat)
  if toTaylor.det = 0 then none
  else some ⟨.modal, c, rule.integrator c, rule.x, toTaylor, toTaylor⁻¹⟩

namespace Setup
variable {p : Nat} {V : Type*} [AddCommGroup V] [Module ℝ V]

/-- `_mode_weights`, expansion.py:543-547. -/
noncomputable def modeWeight (s : Setup p) (k : Fin (p + 1)) : ℝ :=
  s.coordinate.localToJacobian 0 * 2 / (2 * (k : ℝ) + 1)

/-- `get_sample_points`. -/
noncomputable def points (s : Setup p) : Fin (p + 1) → ℝ := samplePoints s.coordinate s.nodes

/-- `get_basis_values`, expansion.py:373-376 and 625-630. -/
noncomputable def basisValues (s : Setup p) (x : ℝ) (i : Fin (p + 1)) : ℝ :=
  let xLocal := s.coordinate.globalToLocal x
  match s.kind with
  | .modal => Vincent.legendre i xLocal
  | _ => PyPoly.basisValue s.nodes xLocal i

/-- `get_basis_gradients`, expansion.py:378-386 and 632-634. -/
noncomputable def basisGradients (s : Setup p) (x : ℝ) (i : Fin (p + 1)) : ℝ :=
  ∑ l : Fin (p + 1), taylorGradients s.coordinate.xCenter x l * s.toTaylor l i

/-- `get_basis_hessians`, expansion.py:388-390 and 636-638. -/
noncomputable def basisHessians (s : Setup p) (x : ℝ) (i : Fin (p + 1)) : ℝ :=
  ∑ l : Fin (p + 1), taylorHessians s.coordinate.xCenter x l * s.toTaylor l i

/-- `get_basis_derivatives`, expansion.py:392-394 and 640-642. -/
noncomputable def basisDerivatives (s : Setup p) (x : ℝ) (k : Nat) (i : Fin (p + 1)) : ℝ :=
  ∑ l : Fin (p + 1), taylorDerivatives s.coordinate.xCenter x k l * s.toTaylor l i

/-- `get_basis_innerproducts`, expansion.py:206-213. -/
noncomputable def innerProducts (s : Setup p) : Matrix (Fin (p + 1)) (Fin (p + 1)) ℝ :=
  fun i j => s.integrator.integrate fun x => s.basisValues x i * s.basisValues x j

end Setup

/-! ### States -/

/-- The coefficients of the basis, the Taylor coefficients and what `average()` returns. -/
structure State (p : Nat) (V : Type*) where
  coeff : Fin (p + 1) → V
  taylor : Fin (p + 1) → V
  average : V

section
variable {p : Nat} {V : Type*} [AddCommGroup V] [Module ℝ V]

/-- A matrix times a column of values. -/
def apply (a : Matrix (Fin (p + 1)) (Fin (p + 1)) ℝ) (v : Fin (p + 1) → V) (i : Fin (p + 1)) : V :=
  ∑ j, a i j • v j

/-- `Taylor.global_to_value`, expansion.py:215-217. -/
def taylorValue (c : ℝ) (taylor : Fin (p + 1) → V) (x : ℝ) : V := ∑ k : Fin (p + 1), taylorValues c x k • taylor k

/-- `Taylor.global_to_gradient`, expansion.py:219-221. -/
def taylorGradient (c : ℝ) (taylor : Fin (p + 1) → V) (x : ℝ) : V :=
  ∑ k : Fin (p + 1), taylorGradients c x k • taylor k

/-- `Taylor.global_to_derivatives`, expansion.py:223-231: above the degree the first access is out of
range. -/
noncomputable def taylorDerivative (c : ℝ) (taylor : Fin (p + 1) → V) (x : ℝ) (k : Nat) : Option V :=
  if k = 0 then some (taylorValue c taylor x)
  else if k ≤ p then
    some (∑ l ∈ Finset.univ.filter fun l : Fin (p + 1) => k ≤ l, taylorDerivatives c x k l • taylor l)
  else none

/-- `global_to_value` of an expansion with its Taylor coefficients. -/
noncomputable def Setup.value (s : Setup p) (st : State p V) (x : ℝ) : V :=
  taylorValue s.coordinate.xCenter st.taylor x

/-- `average()` and `_update_cached_average`, expansion.py:151-154, 312-316, 461-466 and 576-577. -/
noncomputable def mean (s : Setup p) (coeff taylor : Fin (p + 1) → V) : V :=
  match s.kind with
  | .uniform => s.integrator.average (taylorValue s.coordinate.xCenter taylor)
  | .legendreRoots => (s.coordinate.length)⁻¹ • s.integrator.integrateIndex coeff
  | .lobatto => (s.coordinate.length)⁻¹ • s.integrator.integrateIndex coeff
  | .modal => coeff 0

/-- `set_coeff`, expansion.py:346-355 and 597-603. -/
noncomputable def setCoeff (s : Setup p) (coeff : Fin (p + 1) → V) : State p V :=
  let taylor := apply s.toTaylor coeff
  ⟨coeff, taylor, mean s coeff taylor⟩

/-- `set_taylor_coeff`, expansion.py:339-344 and 591-595. -/
noncomputable def setTaylor (s : Setup p) (taylor : Fin (p + 1) → V) : State p V :=
  let coeff := apply s.fromTaylor taylor
  ⟨coeff, taylor, mean s coeff taylor⟩

/-- The constant `1e-10` of expansion.py:524 and 527. -/
noncomputable def nudge : ℝ := ((1 / 10 ^ 10 : ℚ) : ℝ)

/-- `approximate`, expansion.py:360-364, 523-529 and 608-616. -/
noncomputable def approximate (s : Setup p) (f : ℝ → V) : State p V :=
  match s.kind with
  | .uniform => setCoeff s fun i => f (s.points i)
  | .legendreRoots => setCoeff s fun i => f (s.points i)
  | .lobatto => setCoeff s fun i =>
      if i = Fin.last p then f (s.points i - nudge)
      else if i = 0 then f (s.points i + nudge) else f (s.points i)
  | .modal => setCoeff s fun k =>
      (s.modeWeight k)⁻¹ • s.integrator.integrate fun x =>
        Vincent.legendre k (s.coordinate.globalToLocal x) • f x

/-- `get_derivatives_at_node(j, k, basis=True)`, expansion.py:396-409. -/
noncomputable def nodeBasisDerivatives (s : Setup p) (j : Fin (p + 1)) (k : Nat) (i : Fin (p + 1)) : ℝ :=
  if k = 0 then s.basisDerivatives (s.points j) 0 i
  else if k > p then 0 else s.basisDerivatives (s.points j) k i

/-- `get_derivatives_at_node(j, k, basis=False)`, expansion.py:396-409. -/
noncomputable def nodeDerivatives (s : Setup p) (st : State p V) (j : Fin (p + 1)) (k : Nat) : V :=
  if k = 0 then st.coeff j else ∑ i, nodeBasisDerivatives s j k i • st.coeff i

/-- An end of the element. -/
noncomputable def Setup.end_ (s : Setup p) (left : Bool) : ℝ :=
  if left then s.coordinate.xLeft else s.coordinate.xRight

/-- `get_boundary_derivatives(k, left, basis=True)`, concept.py:300-322, expansion.py:492-498 and
516-521. -/
noncomputable def boundaryBasisDerivatives (s : Setup p) (k : Nat) (left : Bool) (i : Fin (p + 1)) : ℝ :=
  match s.kind with
  | .uniform => s.basisDerivatives (s.end_ left) k i
  | .modal => s.basisDerivatives (s.end_ left) k i
  | .legendreRoots => if k > p then 0 else s.basisDerivatives (s.end_ left) k i
  | .lobatto => nodeBasisDerivatives s (if left then 0 else Fin.last p) k i

/-- `get_boundary_derivatives(k, left, basis=False)`. -/
noncomputable def boundaryDerivatives (s : Setup p) (st : State p V) (k : Nat) (left : Bool) : V :=
  match s.kind with
  | .lobatto => nodeDerivatives s st (if left then 0 else Fin.last p) k
  | _ => ∑ i, boundaryBasisDerivatives s k left i • st.coeff i

/-- `TruncatedLegendre.__init__`, expansion.py:649-658: the mode coefficients and the Taylor
coefficients of the lower-order view. -/
def truncate {d : Nat} (h : d ≤ p) (s : Setup p) (st : State p V) : State d V :=
  let e : Fin (d + 1) → Fin (p + 1) := Fin.castLE (by omega)
  let coeff := fun k => st.coeff (e k)
  ⟨coeff, apply (fun r k => s.toTaylor (e r) (e k)) coeff, coeff 0⟩

/-- `get_mode_energy`, expansion.py:571-574. -/
noncomputable def modeEnergy (s : Setup p) (st : State p ℝ) (k : Fin (p + 1)) : ℝ :=
  s.modeWeight k * st.coeff k ^ 2

end

end MiniCFD.PyExpansion
