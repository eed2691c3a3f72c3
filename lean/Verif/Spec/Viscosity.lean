import Verif.Model.Viscosity
import Mathlib.Algebra.BigOperators.Fin
import Mathlib.Data.Matrix.Mul

/-! Spec for C76: what is expected of a damping matrix. -/

namespace MiniCFD.Spec.Viscosity

open MiniCFD.LocalHex

variable {K N Q : Nat}

/-- A matrix stands for an operator on coefficients: it acts on the coefficients of each component alike. -/
def Represents (D : Matrix (Fin N) (Fin N) ℝ) (F : Coeff K N → Coeff K N) : Prop :=
  ∀ u r i, F u r i = ∑ c, D i c * u r c

/-- The weak form of minus the Laplacian, on one cell: `-∫ ∇φᵢ · ∇u` by the quadrature of the cell, for each component. -/
noncomputable def weak (weight : Fin Q → ℝ) (basis : Fin Q → Matrix (Fin 3) (Fin N) ℝ) (u : Coeff K N) : Coeff K N :=
  fun r i => ∑ q, weight q * ∑ d, -(∑ c, basis q d c * u r c) * basis q d i

/-- A gradient computed from the coefficients of each component alike, by the same linear form. -/
def LinearGradient (grad : Coeff K N → Fin Q → Matrix (Fin 3) (Fin K) ℝ) : Prop :=
  ∃ G : Fin Q → Fin 3 → Fin N → ℝ, ∀ u q d r, grad u q d r = ∑ c, G q d c * u r c

/-- An operator on fluxes which treats all components alike and is linear. -/
def LinearDivergence (div : (Fin Q → Matrix (Fin K) (Fin 3) ℝ) → Coeff K N) : Prop :=
  ∃ T : Fin N → Fin Q → Fin 3 → ℝ, ∀ f r i, div f r i = ∑ q, ∑ d, T i q d * f q r d

/-- Coefficients which are one in the last column and zero elsewhere. -/
noncomputable def lastOnes : Coeff K N := Matrix.of fun _ j => if j.val + 1 = N then 1 else 0

end MiniCFD.Spec.Viscosity
