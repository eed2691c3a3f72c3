import Mathlib.Analysis.SpecialFunctions.Trigonometric.Basic
import Mathlib.Data.Fin.VecNotation

/-!
# Model of `geometry::Frame`

Covers `include/mini/geometry/frame.hpp` and the angle helpers of `include/mini/geometry/pi.hpp`.
Scalars are real numbers: `pi()` is taken to be π, and rounding is not modelled.
-/

namespace MiniCFD.Frame

/-- `Vector = Matrix<Scalar, 3, 1>`, frame.hpp:18. -/
abbrev Vec := Fin 3 → ℝ

/-- `deg2rad`, pi.hpp:16-18. -/
noncomputable def deg2rad (deg : ℝ) : ℝ := deg * Real.pi / 180

/-- `rad2deg`, pi.hpp:19-21. -/
noncomputable def rad2deg (rad : ℝ) : ℝ := rad / Real.pi * 180

/-- `CosSin`, pi.hpp:22-25. -/
noncomputable def cosSin (deg : ℝ) : ℝ × ℝ :=
  let rad := deg2rad deg
  (Real.cos rad, Real.sin rad)

/-- The three axes of a `Frame`, frame.hpp:55-56. -/
structure Axes where
  x : Vec
  y : Vec
  z : Vec

/-- A default-constructed `Frame`, frame.hpp:56. -/
def Axes.default : Axes := ⟨![1, 0, 0], ![0, 1, 0], ![0, 0, 1]⟩

/-- `Frame::RotateX`, frame.hpp:30-37. -/
noncomputable def Axes.rotateX (f : Axes) (deg : ℝ) : Axes :=
  let (cos, sin) := cosSin deg
  let new_y := cos • f.y + sin • f.z
  let new_z := cos • f.z - sin • f.y
  { f with y := new_y, z := new_z }

/-- `Frame::RotateY`, frame.hpp:38-45. -/
noncomputable def Axes.rotateY (f : Axes) (deg : ℝ) : Axes :=
  let (cos, sin) := cosSin deg
  let new_x := cos • f.x - sin • f.z
  let new_z := cos • f.z + sin • f.x
  { f with x := new_x, z := new_z }

/-- `Frame::RotateZ`, frame.hpp:46-53. -/
noncomputable def Axes.rotateZ (f : Axes) (deg : ℝ) : Axes :=
  let (cos, sin) := cosSin deg
  let new_x := cos • f.x + sin • f.y
  let new_y := cos • f.y - sin • f.x
  { f with x := new_x, y := new_y }

/-- A call of one of the three mutators of `Frame`. -/
inductive Op
  | rx (deg : ℝ)
  | ry (deg : ℝ)
  | rz (deg : ℝ)

/-- The effect of one call. -/
noncomputable def apply (f : Axes) : Op → Axes
  | .rx d => f.rotateX d
  | .ry d => f.rotateY d
  | .rz d => f.rotateZ d

/-- A sequence of calls on one object. -/
noncomputable def run (f : Axes) (ops : List Op) : Axes := ops.foldl apply f

end MiniCFD.Frame
