import Verif.Model.ShapeHex
import Mathlib.Analysis.Real.Sqrt
import Mathlib.LinearAlgebra.Matrix.NonsingularInverse
import Mathlib.LinearAlgebra.Matrix.Trace
import Mathlib.LinearAlgebra.CrossProduct

/-!
# Jacobians, Newton's iteration and normal frames

Model of the parts of `mini/geometry/{cell,face}.hpp` built on the shape functions, over `ℝ`.

Eigen's `determinant`, `inverse`, `trace`, `cross` and the solution of a linear system are their
mathematical counterparts; where Eigen would divide by zero, or where the code indexes an empty
vector, the result is `none`.
-/

namespace MiniCFD.Cell

open MiniCFD.Shape

variable {n : Nat}

/-- A 3-by-3 matrix, `Jacobian` of cells. -/
abbrev Mat := Matrix (Fin 3) (Fin 3) ℝ

/-- `LocalToShapeHessians`.  Only the hexahedra override the default of cell.hpp:49-52, which returns an
empty vector: reading its entries, as cell.hpp:105 does, is undefined. -/
noncomputable def hessians : (k : Kind) → Point ℝ 3 → Option (Fin k.count → Fin 6 → ℝ)
  | .hexahedron8 => fun p => some (hessians8 p)
  | .hexahedron20 => fun p => some (hessians20 p)
  | .hexahedron26 => fun p => some (hessians26 p)
  | .hexahedron27 => fun p => some (hessians27 p)
  | _ => fun _ => none

/-- `LocalToShape3rdOrderDerivatives`, with the same default (cell.hpp:53-56). -/
noncomputable def thirds : (k : Kind) → Point ℝ 3 → Option (Fin k.count → Fin 10 → ℝ)
  | .hexahedron8 => fun p => some (thirds8 p)
  | .hexahedron20 => fun p => some (thirds20 p)
  | .hexahedron26 => fun p => some (thirds26 p)
  | .hexahedron27 => fun p => some (thirds27 p)
  | _ => fun _ => none

/-- The classes derived from `Cell`, that is those with three local coordinates. -/
noncomputable def cell : (k : Kind) → Option (Element ℝ 3 k.count)
  | .tetrahedron4 => some (tetrahedron4 ℝ)
  | .tetrahedron10 => some (tetrahedron10 ℝ)
  | .pyramid5 => some (pyramid5 ℝ)
  | .pyramid13 => some (pyramid13 ℝ)
  | .pyramid14 => some (pyramid14 ℝ)
  | .wedge6 => some (wedge6 ℝ)
  | .wedge15 => some (wedge15 ℝ)
  | .wedge18 => some (wedge18 ℝ)
  | .hexahedron8 => some (hexahedron8 ℝ)
  | .hexahedron20 => some (hexahedron20 ℝ)
  | .hexahedron26 => some (hexahedron26 ℝ)
  | .hexahedron27 => some (hexahedron27 ℝ)
  | _ => none

/-- The accumulated row `∑ xyz * table[i][a]` of cell.hpp:103-112 and 124-137. -/
noncomputable def row {s : Nat} (coords : Fin n → Point ℝ 3) (table : Fin n → Fin s → ℝ) (a : Fin s) :
    Point ℝ 3 :=
  fun c => ∑ i, coords i c * table i a

/-- `LocalToJacobianGradient`, cell.hpp:98-117: the rows below the diagonal are copied. -/
noncomputable def jacobianGradient (coords : Fin n → Point ℝ 3) (hess : Fin n → Fin 6 → ℝ) :
    Fin 3 → Mat :=
  let r := row coords hess
  let gx : Fin 3 → Point ℝ 3 := ![r 0, r 1, r 2]
  let gy : Fin 3 → Point ℝ 3 := ![gx 1, r 3, r 4]
  let gz : Fin 3 → Point ℝ 3 := ![gx 2, gy 2, r 5]
  ![Matrix.of gx, Matrix.of gy, Matrix.of gz]

/-- `LocalToJacobianHessian`, cell.hpp:118-147. -/
noncomputable def jacobianHessian (coords : Fin n → Point ℝ 3) (third : Fin n → Fin 10 → ℝ) :
    Fin 6 → Mat :=
  let r := row coords third
  let hxx : Fin 3 → Point ℝ 3 := ![r 0, r 1, r 2]
  let hxy : Fin 3 → Point ℝ 3 := ![hxx 1, r 3, r 4]
  let hxz : Fin 3 → Point ℝ 3 := ![hxx 2, hxy 2, r 5]
  let hyy : Fin 3 → Point ℝ 3 := ![hxy 1, r 6, r 7]
  let hyz : Fin 3 → Point ℝ 3 := ![hxy 2, hyy 2, r 8]
  let hzz : Fin 3 → Point ℝ 3 := ![hxz 2, hyz 2, r 9]
  ![Matrix.of hxx, Matrix.of hxy, Matrix.of hxz, Matrix.of hyy, Matrix.of hyz, Matrix.of hzz]

/-- `LocalToJacobian` of a cell as a matrix, cell.hpp:80-88. -/
noncomputable def jacobianMatrix (e : Element ℝ 3 n) (coords : Fin n → Point ℝ 3) (p : Point ℝ 3) : Mat :=
  Matrix.of (jacobian e coords p)

open scoped Classical in
/-- `LocalToJacobianDeterminantGradient`, cell.hpp:155-165. -/
noncomputable def detGradient (e : Element ℝ 3 n) (coords : Fin n → Point ℝ 3)
    (hess : Option (Fin n → Fin 6 → ℝ)) (p : Point ℝ 3) : Option (Fin 3 → ℝ) := do
  let hess ← hess
  let grad := jacobianGradient coords hess
  let mat := jacobianMatrix e coords p
  if mat.det = 0 then none
  else some fun j => mat.det * (mat⁻¹ * grad j).trace

open scoped Classical in
/-- `LocalToJacobianDeterminantHessian`, cell.hpp:172-198. -/
noncomputable def detHessian (e : Element ℝ 3 n) (coords : Fin n → Point ℝ 3)
    (hess : Option (Fin n → Fin 6 → ℝ)) (third : Option (Fin n → Fin 10 → ℝ)) (p : Point ℝ 3) :
    Option (Fin 6 → ℝ) := do
  let third ← third
  let hess ← hess
  let matHess := jacobianHessian coords third
  let mat := jacobianMatrix e coords p
  if mat.det = 0 then none
  else
    let g : Fin 3 → Mat := fun j => mat⁻¹ * jacobianGradient coords hess j
    let first : Fin 6 → ℝ := fun a => (mat⁻¹ * matHess a).trace
    let entry (a : Fin 6) (j k : Fin 3) : ℝ :=
      (first a + ((g j).trace * (g k).trace - (g j * g k).trace)) * mat.det
    some ![entry 0 0 0, entry 1 0 1, entry 2 0 2, entry 3 1 1, entry 4 1 2, entry 5 2 2]

/-! ### Newton's iteration -/

/-- Eigen's `norm`. -/
noncomputable def norm (v : Point ℝ 3) : ℝ := Real.sqrt (∑ j, v j * v j)

open scoped Classical in
/-- One round of `root`, cell.hpp:248: the solution `res` of `Jᵀ res = f(x)`. -/
noncomputable def newtonStep (f : Point ℝ 3 → Point ℝ 3) (jac : Point ℝ 3 → Mat) (x : Point ℝ 3) :
    Option (Point ℝ 3) :=
  if (jac x).det = 0 then none else some ((jac x).transpose⁻¹.mulVec (f x))

open scoped Classical in
/-- `root`, cell.hpp:242-252: the do-while loop.  The code has no bound on the number of rounds; the
model runs at most `fuel` of them and returns `none` when they do not suffice. -/
noncomputable def root (f : Point ℝ 3 → Point ℝ 3) (jac : Point ℝ 3 → Mat) (xtol : ℝ) :
    Nat → Point ℝ 3 → Option (Point ℝ 3)
  | 0, _ => none
  | fuel + 1, x => do
    let res ← newtonStep f jac x
    let x' := x - res
    if norm res > xtol then root f jac xtol fuel x' else some x'

/-- `GlobalToLocal`, cell.hpp:200-211, with the default tolerance of `root`. -/
noncomputable def globalToLocal (e : Element ℝ 3 n) (coords : Fin n → Point ℝ 3) (fuel : Nat)
    (target hint : Point ℝ 3) : Option (Point ℝ 3) :=
  root (fun x => localToGlobal e coords x - target) (jacobianMatrix e coords) (1 / 100000) fuel hint

/-! ### Normal frames -/

/-- Eigen's `normalized`: a vector of length zero is returned unchanged. -/
noncomputable def normalized (v : Point ℝ 3) : Point ℝ 3 :=
  if norm v > 0 then fun j => v j / norm v else v

/-- `_NormalFrameBuilder<Scalar, 3>::Build`, face.hpp:97-110 (and `LocalToNormalVector`, 60-63): normal,
tangent and bitangent. -/
noncomputable def normalFrame (e : Element ℝ 2 n) (coords : Fin n → Point ℝ 3) (p : Point ℝ 2) :
    Point ℝ 3 × Point ℝ 3 × Point ℝ 3 :=
  let jac := jacobian e coords p
  let normal := normalized (crossProduct (jac 0) (jac 1))
  let tangent := normalized (jac 0)
  (normal, tangent, crossProduct normal tangent)

/-- `Hexahedron::GetOutwardNormalVector`, hexahedron.hpp:41-73; `none` when the assertion in the default
case fails. -/
noncomputable def outwardNormal (e : Element ℝ 3 n) (coords : Fin n → Point ℝ 3) (iFace : Nat) :
    Option (Point ℝ 3) :=
  match iFace with
  | 0 => some (-normalized (jacobian e coords ![0, 0, -1] 2))
  | 1 => some (-normalized (jacobian e coords ![0, -1, 0] 1))
  | 2 => some (normalized (jacobian e coords ![1, 0, 0] 0))
  | 3 => some (normalized (jacobian e coords ![0, 1, 0] 1))
  | 4 => some (-normalized (jacobian e coords ![-1, 0, 0] 0))
  | 5 => some (normalized (jacobian e coords ![0, 0, 1] 2))
  | _ => none

end MiniCFD.Cell
