import Mathlib.Algebra.BigOperators.Fin
import Mathlib.Algebra.Field.Basic

/-!
# The direct discontinuous Galerkin interface gradient, in coordinates-free form

`{∇u} + β₀/h [u] n + β₁ h [∇∇u] n`, with the second derivatives as a full symmetric matrix.
-/

namespace MiniCFD.Spec.DirectDG

variable {K : Type*} [Field K] {ι : Type*}

/-- The formula of the scheme: `h i j k` is the derivative of component `k` along `i` and `j`. -/
def interfaceGradient (beta0 beta1 distance : K) (n : Fin 3 → K) (uL uR : ι → K)
    (gL gR : Fin 3 → ι → K) (hL hR : Fin 3 → Fin 3 → ι → K) (i : Fin 3) (k : ι) : K :=
  (gL i k + gR i k) / 2 + beta0 / distance * (uR k - uL k) * n i +
    beta1 * distance * ∑ j, (hR i j k - hL i j k) * n j

/-- The six rows of a symmetric matrix: `xx, xy, xz, yy, yz, zz`. -/
def pack (h : Fin 3 → Fin 3 → ι → K) : Fin 6 → ι → K :=
  ![h 0 0, h 0 1, h 0 2, h 1 1, h 1 2, h 2 2]

end MiniCFD.Spec.DirectDG
