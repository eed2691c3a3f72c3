import Verif.Model.Eigen
import Verif.Spec.Euler
import Mathlib.Analysis.Calculus.Deriv.Basic

/-! Eigenvectors of the flux Jacobian, stated by directional derivatives. -/

namespace MiniCFD.Spec.Eigen
open MiniCFD.Euler MiniCFD.Eigen MiniCFD.Spec.Euler

/-- A column of a 5x5 matrix as a state. -/
def column (M : Mat5) (j : Fin 5) : Tup 2 := ⟨M 0 j, ![M 1 j, M 2 j, M 3 j], M 4 j⟩

/-- `D` is the derivative of the flux through a face with normal `nu` at the state `c` in the
direction `δ` of state space. -/
def FluxDeriv {d : Nat} (γ : ℝ) (nu : Fin (d + 1) → ℝ) (c δ D : Tup d) : Prop :=
  HasDerivAt (fun t : ℝ => (flux γ nu (Tup.add c (Tup.scale t δ))).mass) D.mass 0 ∧
  (∀ i, HasDerivAt (fun t : ℝ => (flux γ nu (Tup.add c (Tup.scale t δ))).mom i) (D.mom i) 0) ∧
  HasDerivAt (fun t : ℝ => (flux γ nu (Tup.add c (Tup.scale t δ))).energy) D.energy 0

/-- The five characteristic speeds. -/
noncomputable def speeds (γ : ℝ) (nu : Fin 3 → ℝ) (c : Tup 2) : Fin 5 → ℝ :=
  let un := velAlong nu c
  ![un - sound γ c, un, un, un, un + sound γ c]

end MiniCFD.Spec.Eigen
