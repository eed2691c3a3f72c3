import Mathlib.Data.Real.Basic

/-! Specification for limiters in a mirror. -/

namespace MiniCFD.Spec.PyMirrorLimiter

/-- The image of a scalar function in the mirror at `w / 2`; `σ` is `1` for a quantity like a concentration, and `-1` for
a velocity. -/
def imageOf (σ w : ℝ) (f : ℝ → ℝ) : ℝ → ℝ := fun x => σ * f (w - x)

end MiniCFD.Spec.PyMirrorLimiter
