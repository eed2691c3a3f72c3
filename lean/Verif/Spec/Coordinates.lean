import Mathlib.Analysis.SpecialFunctions.Trigonometric.Basic
import Mathlib.Analysis.Complex.Trigonometric

/-!
# Similarities of space

The plane of the first two coordinates is read as the complex plane.
-/

namespace MiniCFD.Spec.Coordinates

/-- A point, the first two coordinates taken together. -/
abbrev Pt := ℂ × ℝ

/-- The point with the given coordinates. -/
def pt (x y z : ℝ) : Pt := (⟨x, y⟩, z)

/-- The square of the distance of two points. -/
noncomputable def dist2 (p q : Pt) : ℝ := Complex.normSq (p.1 - q.1) + (p.2 - q.2) ^ 2

/-- Displacement. -/
noncomputable def shift (v p : Pt) : Pt := (p.1 + v.1, p.2 + v.2)

/-- Dilation by `s` away from `c`. -/
noncomputable def dilate (c : Pt) (s : ℝ) (p : Pt) : Pt := (c.1 + s * (p.1 - c.1), c.2 + s * (p.2 - c.2))

/-- Counterclockwise rotation by the angle, in radians, about the vertical axis through `o`. -/
noncomputable def turn (o : ℂ) (angle : ℝ) (p : Pt) : Pt := (o + Complex.exp (angle * Complex.I) * (p.1 - o), p.2)

end MiniCFD.Spec.Coordinates
