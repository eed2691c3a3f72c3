import Verif.Spec.Frame
import Mathlib.Analysis.SpecialFunctions.Trigonometric.Basic

/-! Where the blades of a rotor should be, and what interpolation along a blade should give. -/

namespace MiniCFD.Spec.Rotor
open MiniCFD.Spec.Frame Matrix

/-- A blade with the given root offset and span is where it should be: its axes `bx, by', bz` are the
rotor's axes turned by `angle` about the rotor's third axis, `p` and `q` are its inner and outer end
on its second axis, and `point l` is the point at the fraction `l` of the span. -/
structure Placed (fx fy fz origin : Fin 3 → ℝ) (root span angle : ℝ) (bx by' bz p q pq : Fin 3 → ℝ)
    (point : ℝ → Option (Fin 3 → ℝ)) : Prop where
  x : bx = turn fz angle fx
  y : by' = turn fz angle fy
  z : bz = turn fz angle fz
  inner : p = origin + root • by'
  outer : q = origin + (root + span) • by'
  diff : pq = q - p
  mid : ∀ l, 0 ≤ l → l ≤ 1 → point l = some (origin + (root + l * span) • by')

/-- The value at `y` of the straight line through `(y0, v0)` and `(y1, v1)`. -/
noncomputable def lerp (y0 v0 y1 v1 y : ℝ) : ℝ := v0 + (v1 - v0) * ((y - y0) / (y1 - y0))

/-- `deg` is a direction angle of the plane vector `(u, w)`, in degrees. -/
def IsAngle (u w deg : ℝ) : Prop :=
  u = Real.sqrt (u ^ 2 + w ^ 2) * Real.cos (Real.pi * (deg / 180)) ∧
    w = Real.sqrt (u ^ 2 + w ^ 2) * Real.sin (Real.pi * (deg / 180))

end MiniCFD.Spec.Rotor
