import Verif.Model.Cell
import Verif.Model.Lagrange

/-!
# Polynomials interpolated on hexahedra

Model of `mini/polynomial/hexahedron.hpp`, over `ℝ`.

* `lagrange()` is a hexahedral cell of `Verif.Model.Cell`, given by its element `e`, the coordinates of its
  nodes, and the tables of second and third derivatives of its shape functions.
* The interpolation nodes are the Gauss points; `nx`, `ny`, `nz` are the points of the three rules.  Both
  `gauss::Hexahedron::BuildLocalCoords` (gauss/hexahedron.hpp:66-80) and the basis list them with the last
  index running fastest, so that the point `ijk` is `node nx ny nz ijk`.
* Eigen's `inverse` of a singular matrix, a division by a vanishing determinant, and a read beyond the cached
  orders of derivatives are `none`.
-/

namespace MiniCFD.LocalHex

open MiniCFD.Shape MiniCFD.Cell MiniCFD.Lagrange

variable {P Q R n K : Nat}

/-- `Coeff`, hexahedron.hpp:71. -/
abbrev Coeff (K N : Nat) := Matrix (Fin K) (Fin N) ℝ

/-- The lines of interpolation nodes, `BuildInterpolationBasis`, hexahedron.hpp:124-130. -/
structure Basis (P Q R : Nat) where
  nx : Fin (P + 1) → ℝ
  ny : Fin (Q + 1) → ℝ
  nz : Fin (R + 1) → ℝ

/-- `Basis::N`. -/
abbrev size (P Q R : Nat) : Nat := (P + 1) * (Q + 1) * (R + 1)

/-- `basis_.GetValues(local)`. -/
noncomputable def Basis.values (b : Basis P Q R) (p : Point ℝ 3) : Fin (size P Q R) → ℝ :=
  Lagrange.row (hexValues b.nx b.ny b.nz (p 0) (p 1) (p 2))

/-- `basis_.GetDerivatives(a, b, c, local)`, defined for orders up to the degrees (the assertion of
taylor.hpp:64). -/
noncomputable def Basis.derivatives (b : Basis P Q R) (i j k : Nat) (p : Point ℝ 3) :
    Option (Fin (size P Q R) → ℝ) :=
  if i ≤ P ∧ j ≤ Q ∧ k ≤ R then some (Lagrange.row (hexDerivatives b.nx b.ny b.nz i j k (p 0) (p 1) (p 2)))
  else none

/-- `gauss_ptr_->GetLocalCoord(ijk)`; the index is in range, so the second case does not occur. -/
noncomputable def Basis.node (b : Basis P Q R) (m : Fin (size P Q R)) : Point ℝ 3 :=
  match hexNode b.nx b.ny b.nz m with
  | some (x, y, z) => ![x, y, z]
  | none => 0

/-- The rows of first derivatives: `LocalToLocalGradient` (hexahedron.hpp:313-324) and
`BuildBasisLocalGradients` (133-145), which reads them from the table of the basis. -/
noncomputable def Basis.gradients (b : Basis P Q R) (p : Point ℝ 3) :
    Option (Matrix (Fin 3) (Fin (size P Q R)) ℝ) := do
  let x ← b.derivatives 1 0 0 p
  let y ← b.derivatives 0 1 0 p
  let z ← b.derivatives 0 0 1 p
  some (Matrix.of ![x, y, z])

/-- `BuildBasisLocalHessians`, hexahedron.hpp:147-163. -/
noncomputable def Basis.hessians (b : Basis P Q R) (p : Point ℝ 3) :
    Option (Matrix (Fin 6) (Fin (size P Q R)) ℝ) := do
  let xx ← b.derivatives 2 0 0 p
  let xy ← b.derivatives 1 1 0 p
  let xz ← b.derivatives 1 0 1 p
  let yy ← b.derivatives 0 2 0 p
  let yz ← b.derivatives 0 1 1 p
  let zz ← b.derivatives 0 0 2 p
  some (Matrix.of ![xx, xy, xz, yy, yz, zz])

/-- A hexahedral cell. -/
structure Geometry where
  kind : Kind
  element : Element ℝ 3 kind.count
  coords : Fin kind.count → Point ℝ 3

namespace Geometry

/-- `LocalToGlobal`. -/
noncomputable def map (g : Geometry) (p : Point ℝ 3) : Point ℝ 3 := localToGlobal g.element g.coords p

/-- `LocalToJacobian`. -/
noncomputable def jac (g : Geometry) (p : Point ℝ 3) : Mat := jacobianMatrix g.element g.coords p

/-- `LocalToJacobianGradient`. -/
noncomputable def jacGrad (g : Geometry) (p : Point ℝ 3) : Option (Fin 3 → Mat) :=
  (Cell.hessians g.kind p).map (jacobianGradient g.coords)

/-- `LocalToJacobianDeterminantGradient`. -/
noncomputable def detGrad (g : Geometry) (p : Point ℝ 3) : Option (Fin 3 → ℝ) :=
  detGradient g.element g.coords (Cell.hessians g.kind p) p

/-- `LocalToJacobianDeterminantHessian`. -/
noncomputable def detHess (g : Geometry) (p : Point ℝ 3) : Option (Fin 6 → ℝ) :=
  detHessian g.element g.coords (Cell.hessians g.kind p) (Cell.thirds g.kind p) p

end Geometry

/-- What the constructor caches at one Gauss point, hexahedron.hpp:88-109. -/
structure Cache where
  det : ℝ
  assoc : Mat
  detGrad : Fin 3 → ℝ
  afterHess : Mat
  afterGrad : Fin 3 → Mat
  beforeGrad : Fin 3 → ℝ
  beforeU : Mat

/-- A row vector from the six slots, hexahedron.hpp:199-207 and 405-413. -/
def unpack (h : Fin 6 → ℝ) : Mat :=
  Matrix.of ![![h 0, h 1, h 2], ![h 1, h 3, h 4], ![h 2, h 4, h 5]]

open scoped Classical in
/-- The constructor for `kLocal`, hexahedron.hpp:166-216, at one Gauss point. -/
noncomputable def cache (g : Geometry) (p : Point ℝ 3) : Option Cache := do
  let mat := g.jac p
  if mat.det = 0 then none
  else do
    let inv := mat⁻¹
    let det := mat.det
    let detGrad ← g.detGrad p
    let invT := inv.transpose
    let matGrad ← g.jacGrad p
    let invTGrad : Fin 3 → Mat := fun a => -(inv * matGrad a * inv).transpose
    let det2 := det * det
    let detHess ← g.detHess p
    let det3 := det2 * det
    let before : Mat := unpack detHess * ((1 / det2) • invT)
    some {
      det := det
      assoc := det • inv
      detGrad := detGrad
      afterHess := (1 / det) • invT
      afterGrad := fun a => (1 / det) • invTGrad a + (-detGrad a / det2) • invT
      beforeGrad := (1 / det2) • Matrix.vecMul detGrad invT
      beforeU := Matrix.of fun a => before a
        + Matrix.vecMul detGrad ((1 / det2) • invTGrad a + (-2 * detGrad a / det3) • invT) }

open scoped Classical in
/-- `LocalToValue` for `kLocal`, hexahedron.hpp:234-238. -/
noncomputable def localToValue (g : Geometry) (b : Basis P Q R) (coeff : Coeff K (size P Q R)) (p : Point ℝ 3) :
    Option (Fin K → ℝ) :=
  if (g.jac p).det = 0 then none else some ((1 / (g.jac p).det) • coeff.mulVec (b.values p))

/-- `LocalToValue` for `!kLocal`, hexahedron.hpp:239-241. -/
noncomputable def localToValueGlobal (b : Basis P Q R) (coeff : Coeff K (size P Q R)) (p : Point ℝ 3) :
    Fin K → ℝ := coeff.mulVec (b.values p)

/-- `GetValue` for `kLocal`, hexahedron.hpp:261-263. -/
noncomputable def getValue (c : Cache) (coeff : Coeff K n) (m : Fin n) : Fin K → ℝ :=
  (1 / c.det) • fun k => coeff k m

/-- `Approximate` for `kLocal`, hexahedron.hpp:499-505. -/
noncomputable def approximate (g : Geometry) (b : Basis P Q R) (caches : Fin (size P Q R) → Cache)
    (f : Point ℝ 3 → Fin K → ℝ) : Coeff K (size P Q R) :=
  fun k m => f (g.map (b.node m)) k * (caches m).det

/-- `Approximate` for `!kLocal`, hexahedron.hpp:506-512. -/
noncomputable def approximateGlobal (g : Geometry) (b : Basis P Q R) (f : Point ℝ 3 → Fin K → ℝ) :
    Coeff K (size P Q R) := fun k m => f (g.map (b.node m)) k

/-- The loop of `GetLocalGradient` (hexahedron.hpp:305-312), `LocalToLocalGradient` (320-323) and
`GetLocalHessian` (388-395): a sum of outer products. -/
noncomputable def outer {s N : Nat} (basis : Matrix (Fin s) (Fin N) ℝ) (coeff : Coeff K N) :
    Matrix (Fin s) (Fin K) ℝ :=
  (List.finRange N).foldl (fun acc m => acc + Matrix.of fun j k => basis j m * coeff k m) 0

/-- `LocalToLocalGradient`, and `GetLocalGradient` at a node. -/
noncomputable def localGradient (b : Basis P Q R) (coeff : Coeff K (size P Q R)) (p : Point ℝ 3) :
    Option (Matrix (Fin 3) (Fin K) ℝ) := (b.gradients p).map (outer · coeff)

open scoped Classical in
/-- `LocalToGlobalGradient`, hexahedron.hpp:325-333. -/
noncomputable def localToGlobalGradient (g : Geometry) (b : Basis P Q R) (coeff : Coeff K (size P Q R))
    (p : Point ℝ 3) : Option (Matrix (Fin 3) (Fin K) ℝ) := do
  let grad ← localGradient b coeff p
  let mat := g.jac p
  let detGrad ← g.detGrad p
  if mat.det = 0 then none
  else
    let value := coeff.mulVec (b.values p)
    let grad := grad - Matrix.of fun j k => detGrad j / mat.det * value k
    some (((1 / mat.det) • mat⁻¹) * grad)

/-- `GetGlobalGradient(value, local_grad, ijk)`, hexahedron.hpp:360-367. -/
noncomputable def globalGradient (c : Cache) (value : Fin K → ℝ) (grad : Matrix (Fin 3) (Fin K) ℝ) :
    Matrix (Fin 3) (Fin K) ℝ :=
  c.assoc * ((1 / (c.det * c.det)) • (grad - Matrix.of fun j k => c.detGrad j * value k))

/-- `GetGlobalGradient(ijk)`, hexahedron.hpp:357-359. -/
noncomputable def getGlobalGradient (g : Geometry) (b : Basis P Q R) (coeff : Coeff K (size P Q R))
    (m : Fin (size P Q R)) : Option (Matrix (Fin 3) (Fin K) ℝ) := do
  let c ← cache g (b.node m)
  let grad ← localGradient b coeff (b.node m)
  some (globalGradient c (getValue c coeff m) grad)

/-- The body of the loop over components of `GetGlobalHessian`, hexahedron.hpp:402-427. -/
noncomputable def scalarHessian (c : Cache) (hess : Fin 6 → ℝ) (grad : Fin 3 → ℝ) (value : ℝ) : Mat :=
  let h := unpack hess * c.afterHess
  let h : Mat := Matrix.of fun a => h a + (Matrix.vecMul grad (c.afterGrad a) - grad a • c.beforeGrad)
  let h := h - value • c.beforeU
  (1 / c.det) • (c.assoc * h)

/-- `GetGlobalHessian`, hexahedron.hpp:396-435: the upper triangle is returned. -/
noncomputable def getGlobalHessian (g : Geometry) (b : Basis P Q R) (coeff : Coeff K (size P Q R))
    (m : Fin (size P Q R)) : Option (Matrix (Fin 6) (Fin K) ℝ) := do
  let c ← cache g (b.node m)
  let grad ← localGradient b coeff (b.node m)
  let basisHess ← b.hessians (b.node m)
  let hess := outer basisHess coeff
  some (Matrix.of fun s k =>
    let h := scalarHessian c (fun s => hess s k) (fun j => grad j k) (coeff k m)
    (![h 0 0, h 0 1, h 0 2, h 1 1, h 1 2, h 2 2] : Fin 6 → ℝ) s)

open scoped Classical in
/-- `LocalGradientsToGlobalGradients`, hexahedron.hpp:446-449: Eigen's solution of `J x = grad`, for a
regular matrix. -/
noncomputable def localGradientsToGlobalGradients {N : Nat} (jac : Mat) (grad : Matrix (Fin 3) (Fin N) ℝ) :
    Option (Matrix (Fin 3) (Fin N) ℝ) := if jac.det = 0 then none else some (jac⁻¹ * grad)

/-- `GetGlobalGradient(ijk)` for `!kLocal`, hexahedron.hpp:345-348, with the table of the constructor
(217-227). -/
noncomputable def getGlobalGradientGlobal (g : Geometry) (b : Basis P Q R) (coeff : Coeff K (size P Q R))
    (m : Fin (size P Q R)) : Option (Matrix (Fin 3) (Fin K) ℝ) := do
  let grads ← b.gradients (b.node m)
  let grads ← localGradientsToGlobalGradients (g.jac (b.node m)) grads
  some (grads * coeff.transpose)

/-- `GlobalFluxToLocalFlux`, hexahedron.hpp:462-467. -/
noncomputable def globalFluxToLocalFlux (c : Cache) (flux : Matrix (Fin K) (Fin 3) ℝ) : Matrix (Fin K) (Fin 3) ℝ :=
  flux * c.assoc

end MiniCFD.LocalHex
