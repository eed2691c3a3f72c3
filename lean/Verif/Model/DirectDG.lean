import Mathlib.Algebra.Field.Basic
import Mathlib.Data.Fin.Basic

/-!
# Model of the diffusive interface terms

Covers `include/mini/riemann/diffusive/direct_dg.hpp` and `linear.hpp`.  A gradient is a matrix with
one row per direction (`X = 0`, `Y = 1`, `Z = 2`), a Hessian one with six rows, in the order of
`include/mini/constant/index.hpp`.  The static members of the classes are arguments here.
-/

namespace MiniCFD.DirectDG

variable {K : Type*} [Field K] {ι : Type*}

/-- `Vector`, linear.hpp:24. -/
abbrev Vector (K : Type*) := Fin 3 → K
/-- `Conservative`, linear.hpp:25; `ι` indexes the components. -/
abbrev Value (K ι : Type*) := ι → K
/-- `Gradient`, linear.hpp:26. -/
abbrev Gradient (K ι : Type*) := Fin 3 → ι → K
/-- `Hessian`, direct_dg.hpp:25. -/
abbrev Hessian (K ι : Type*) := Fin 6 → ι → K

/-- `matrix.row(i) += coefficient * row`. -/
def addRow {n : Nat} (m : Fin n → ι → K) (i : Fin n) (c : K) (r : ι → K) : Fin n → ι → K :=
  fun j => if j = i then fun k => m j k + c * r k else m j

/-- `index.hpp`: the names of the rows of a Hessian. -/
def XX : Fin 6 := 0
def XY : Fin 6 := 1
def XZ : Fin 6 := 2
def YX : Fin 6 := XY
def YY : Fin 6 := 3
def YZ : Fin 6 := 4
def ZX : Fin 6 := XZ
def ZY : Fin 6 := YZ
def ZZ : Fin 6 := 5

/-- `GetCommonGradient` without Hessians, direct_dg.hpp:32-44. -/
def commonGradient (beta0 distance : K) (normal : Vector K) (leftValue rightValue : Value K ι)
    (leftGradient rightGradient : Gradient K ι) : Gradient K ι :=
  let g : Gradient K ι := fun i k => (leftGradient i k + rightGradient i k) / 2
  let normal : Vector K := fun i => normal i * (beta0 / distance)
  let jump : Value K ι := fun k => rightValue k - leftValue k
  let g := addRow g 0 (normal 0) jump
  let g := addRow g 1 (normal 1) jump
  addRow g 2 (normal 2) jump

/-- `GetCommonGradient` with Hessians, direct_dg.hpp:46-65.  The normal is passed by value, so that
the scaling inside the first overload is not seen by the second. -/
def commonGradientH (beta0 beta1 distance : K) (normal : Vector K)
    (leftValue rightValue : Value K ι) (leftGradient rightGradient : Gradient K ι)
    (leftHessian rightHessian : Hessian K ι) : Gradient K ι :=
  let g := commonGradient beta0 distance normal leftValue rightValue leftGradient rightGradient
  let normal : Vector K := fun i => normal i * (beta1 * distance)
  let jump : Hessian K ι := fun i k => rightHessian i k - leftHessian i k
  let g := addRow g 0 (normal 0) (jump XX)
  let g := addRow g 0 (normal 1) (jump XY)
  let g := addRow g 0 (normal 2) (jump XZ)
  let g := addRow g 1 (normal 0) (jump YX)
  let g := addRow g 1 (normal 1) (jump YY)
  let g := addRow g 1 (normal 2) (jump YZ)
  let g := addRow g 2 (normal 0) (jump ZX)
  let g := addRow g 2 (normal 1) (jump ZY)
  addRow g 2 (normal 2) (jump ZZ)

/-- `Anisotropic::MinusViscousFlux` on a flux matrix, linear.hpp:40-46; column `i` of the flux matrix
is `flux i` here. -/
def minusFluxMatrix (nu : Vector K) (gradient flux : Gradient K ι) : Gradient K ι :=
  let f := addRow flux 0 (-nu 0) (gradient 0)
  let f := addRow f 1 (-nu 1) (gradient 1)
  addRow f 2 (-nu 2) (gradient 2)

/-- `Anisotropic::MinusViscousFlux` on a flux through a face, linear.hpp:48-54. -/
def minusFlux (nu : Vector K) (gradient : Gradient K ι) (normal : Vector K) (flux : Value K ι) :
    Value K ι :=
  let f : Value K ι := fun k => flux k - normal 0 * nu 0 * gradient 0 k
  let f : Value K ι := fun k => f k - normal 1 * nu 1 * gradient 1 k
  fun k => f k - normal 2 * nu 2 * gradient 2 k

/-- `Isotropic::SetDiffusionCoefficient`, linear.hpp:83-85. -/
def isotropic (nu : K) : Vector K := fun _ => nu

end MiniCFD.DirectDG
