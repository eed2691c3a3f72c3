import Verif.Model.PyDG
import Mathlib.Analysis.Normed.Module.Basic
import Mathlib.Topology.Algebra.Module.ContinuousLinearMap.Basic

/-!
# What it means to look at a problem in a mirror

The mirror stands at `w / 2`: it takes the point `x` to `w - x`, the value `u` to `M u` (velocities change their
sign) and the flux `F` to `-(M F)`.
-/

namespace MiniCFD.Spec.PyMirror
open MiniCFD.PyQuad MiniCFD.PyDG

variable {V : Type*} [NormedAddCommGroup V] [NormedSpace ℝ V]

/-- The second equation with its Riemann solver is what the first one is in the mirror, on the values in `D`. -/
structure Mirrors (M : V →L[ℝ] V) (D : V → Prop) (ph ph' : Physics V) : Prop where
  convective : ∀ u, D u → ph'.convective (M u) = -(M (ph.convective u))
  diffusive : ∀ u du nu, ph'.diffusive (M u) (-(M du)) nu = -(M (ph.diffusive u du nu))
  coefficient : ∀ u, ph'.coefficient (M u) = ph.coefficient u
  inviscid : ph'.inviscid = ph.inviscid
  upwind : ∀ l r, D l → D r → ph'.upwind (M r) (M l) = -(M (ph.upwind l r))

/-- Intervals that are images of each other. -/
structure Opposite (w : ℝ) (c c' : Coordinate) : Prop where
  left : c'.xLeft = w - c.xRight
  right : c'.xRight = w - c.xLeft

/-- Functions that are images of each other. -/
def Image (M : V →L[ℝ] V) (w : ℝ) (f f' : ℝ → V) : Prop := ∀ x, f' x = M (f (w - x))

end MiniCFD.Spec.PyMirror
