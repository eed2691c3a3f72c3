import Verif.Model.Cell
import Verif.Model.SortNodes

/-!
# The surface element built on the nodes of a face

The cells and `SortNodesOnFace` are in `Verif.Model.{Shape,ShapeHex,Cell,SortNodes}`.
-/

namespace MiniCFD.Conform

open MiniCFD.Shape

/-- The class of `Face` for a number of nodes: `Triangle3` (triangle.hpp:57), `Quadrangle4`
(quadrangle.hpp:55), `Triangle6` (triangle.hpp:121), `Quadrangle8` (quadrangle.hpp:149), `Quadrangle9`
(quadrangle.hpp:270).  `Part::BuildGaussForFace` (part.hpp:749-760) itself chooses among the first two only. -/
noncomputable def surface : (m : Nat) → Option (Element ℝ 2 m)
  | 3 => some (triangle3 ℝ)
  | 4 => some (quadrangle4 ℝ)
  | 6 => some (triangle6 ℝ)
  | 8 => some (quadrangle8 ℝ)
  | 9 => some (quadrangle9 ℝ)
  | _ => none

end MiniCFD.Conform
