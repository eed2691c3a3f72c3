import Mathlib.MeasureTheory.Integral.IntervalIntegral.Basic
import Mathlib.Data.Sign.Basic

/-! What a self-similar solution `u(x, t) = w (x / t)` of `u_t + f(u)_x = 0` with initial values
`left` for `x < 0` and `right` for `x > 0` has to satisfy. -/

namespace MiniCFD.Spec.PyScalar
open MeasureTheory

/-- Kruzhkov's entropy flux for the entropy `|u - c|`. -/
noncomputable def kruzhkov (f : ℝ → ℝ) (c u : ℝ) : ℝ := (SignType.sign (u - c) : ℝ) * (f u - f c)

/-- The entropy solution of the Riemann problem, in integral form.  With `w` in place of `u`, the
inequality `|u - c|_t + q(u)_x ≤ 0` integrated over the triangle between the rays `x = a t`,
`x = b t` and `t = 1` reads as below, and taking `c` below or above all values gives the
conservation law itself. -/
structure IsEntropySolution (f : ℝ → ℝ) (left right : ℝ) (w : ℝ → ℝ) : Prop where
  far_left : ∃ a, ∀ x ≤ a, w x = left
  far_right : ∃ b, ∀ x ≥ b, w x = right
  integrable : ∀ a b, IntervalIntegrable w volume a b
  entropy : ∀ c a b, a ≤ b →
    ∫ x in a..b, |w x - c| ≤ (b * |w b - c| - kruzhkov f c (w b)) - (a * |w a - c| - kruzhkov f c (w a))

/-- The conservation law over the same triangle. -/
def Conserves (f : ℝ → ℝ) (w : ℝ → ℝ) : Prop :=
  ∀ a b, a ≤ b → ∫ x in a..b, w x = (b * w b - f (w b)) - (a * w a - f (w a))

end MiniCFD.Spec.PyScalar
