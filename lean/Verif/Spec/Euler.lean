import Verif.Model.Euler

/-! Textbook ideal-gas dynamics, independent of the code: everything in conservative variables. -/

namespace MiniCFD.Spec.Euler
open MiniCFD.Euler

variable {d : Nat}

/-- Velocity of a conservative state. -/
noncomputable def vel (c : Tup d) (i : Fin (d + 1)) : ℝ := c.mom i / c.mass

/-- Pressure of a conservative state. -/
noncomputable def pressure (γ : ℝ) (c : Tup d) : ℝ :=
  (γ - 1) * (c.energy - (∑ i, c.mom i ^ 2) / (2 * c.mass))

/-- A physical state: positive density, non-negative pressure. -/
def Physical (γ : ℝ) (c : Tup d) : Prop := 0 < c.mass ∧ 0 ≤ pressure γ c

/-- A physical state with positive pressure. -/
def Admissible (γ : ℝ) (c : Tup d) : Prop := 0 < c.mass ∧ 0 < pressure γ c

/-- Speed of sound. -/
noncomputable def sound (γ : ℝ) (c : Tup d) : ℝ := Real.sqrt (γ * pressure γ c / c.mass)

/-- Velocity along a direction. -/
noncomputable def velAlong (nu : Fin (d + 1) → ℝ) (c : Tup d) : ℝ := ∑ i, vel c i * nu i

/-- The Euler flux through a face with unit normal `nu`. -/
noncomputable def flux (γ : ℝ) (nu : Fin (d + 1) → ℝ) (c : Tup d) : Tup d :=
  ⟨c.mass * velAlong nu c,
   fun i => c.mom i * velAlong nu c + pressure γ c * nu i,
   (c.energy + pressure γ c) * velAlong nu c⟩

/-- An orthonormal face frame. -/
def Orthonormal (F : Frame d) : Prop := F * F.transpose = 1

/-- A primitive state with positive density and pressure. -/
def AdmissiblePrim (s : Tup d) : Prop := 0 < s.mass ∧ 0 < s.energy

/-- Toro's primitive-variable estimate of the pressure between the two acoustic waves. -/
noncomputable def pvrs (γ : ℝ) (nu : Fin (d + 1) → ℝ) (l r : Tup d) : ℝ :=
  max 0 ((pressure γ l + pressure γ r) / 2 -
    (velAlong nu r - velAlong nu l) * (l.mass + r.mass) * (sound γ l + sound γ r) / 8)

/-- Toro's speed, relative to the gas, of an acoustic wave of strength `p` into state `c`. -/
noncomputable def acoustic (γ p : ℝ) (c : Tup d) : ℝ :=
  sound γ c * (if p ≤ pressure γ c then 1
    else Real.sqrt (1 + (γ + 1) / (2 * γ) * (p / pressure γ c - 1)))

/-- Mirror image in the plane normal to axis 0. -/
def mirror (s : Tup d) : Tup d := { s with mom := fun i => if i = 0 then -s.mom i else s.mom i }

end MiniCFD.Spec.Euler
