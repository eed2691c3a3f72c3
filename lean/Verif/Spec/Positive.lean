import Verif.Spec.Euler

/-!
# Positive density and pressure

What is asked of the flux through a face: a cell which exchanges nothing but what this face passes on, beyond the
flux of its own state, keeps a positive density and a positive pressure.
-/

namespace MiniCFD.Spec.Positive

open MiniCFD.Euler MiniCFD.Spec.Euler

variable {d : Nat}

/-- How far a cell in state `c` has to do with a face of normal `nu`, per time, if the pressure at the face is `p`:
the speed of the gas and of the acoustic wave into it. -/
noncomputable def reach (γ p : ℝ) (nu : Fin (d + 1) → ℝ) (c : Tup d) : ℝ := |velAlong nu c| + acoustic γ p c

/-- A pressure which meeting gases do not exceed. -/
noncomputable def impact (γ : ℝ) (nu : Fin (d + 1) → ℝ) (l r : Tup d) : ℝ :=
  2 * pressure γ l + 2 * pressure γ r + 4 * γ * l.mass * (velAlong nu l - velAlong nu r) ^ 2

/-- Part `θ` of the cell on the side from which the normal comes, after passing on `f` through the face. -/
noncomputable def holder (γ θ : ℝ) (nu : Fin (d + 1) → ℝ) (f c : Tup d) : Tup d :=
  Tup.add c (Tup.scale θ (Tup.sub (flux γ nu c) f))

/-- The same for the cell to which the normal points. -/
noncomputable def sharer (γ θ : ℝ) (nu : Fin (d + 1) → ℝ) (f c : Tup d) : Tup d :=
  Tup.add c (Tup.scale θ (Tup.sub f (flux γ nu c)))

end MiniCFD.Spec.Positive
