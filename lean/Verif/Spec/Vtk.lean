import Verif.Model.Vtk

/-!
# What a reader of VTK files sees

Written from the documentation of the format, not from the writer.
-/

namespace MiniCFD.Spec.Vtk

open MiniCFD.Shape MiniCFD.Vtk

variable {G : Type}

/-- A cell of a piece as a reader sees it: its type, and position and fields of each of its points.  The
points of cell `i` are listed in `connectivity` from the offset of the cell before up to its own. -/
def readCell (p : Piece G) (i : Nat) : Option (Nat × List (G × List ℝ)) := do
  let type ← p.types[i]?
  let stop ← p.offsets[i]?
  let start ← (0 :: p.offsets)[i]?
  let ids := (p.connectivity.drop start).take (stop - start)
  let pts ← ids.mapM fun id => do
    let x ← p.points[id]?
    let f ← p.pointData.mapM (·[id]?)
    some (x, f)
  some (type, pts)

/-- The numbers of the cell types in the documentation: `VTK_QUADRATIC_TETRA`, `VTK_QUADRATIC_WEDGE`,
`VTK_TRIQUADRATIC_HEXAHEDRON`. -/
def typeOf : Nat → Option (Nat × Nat)
  | 4 => some (24, 10)
  | 6 => some (26, 15)
  | 8 => some (29, 27)
  | _ => none

/-- Between which corners the nodes of these cells lie. -/
def between : Nat → List (List Nat)
  | 4 => [[0], [1], [2], [3], [0, 1], [1, 2], [2, 0], [0, 3], [1, 3], [2, 3]]
  | 6 => [[0], [1], [2], [3], [4], [5], [0, 1], [1, 2], [2, 0], [3, 4], [4, 5], [5, 3], [0, 3], [1, 4], [2, 5]]
  | 8 => [[0], [1], [2], [3], [4], [5], [6], [7],
          [0, 1], [1, 2], [2, 3], [3, 0], [4, 5], [5, 6], [6, 7], [7, 4], [0, 4], [1, 5], [2, 6], [3, 7],
          [0, 3, 7, 4], [1, 2, 6, 5], [0, 1, 5, 4], [3, 2, 6, 7], [0, 1, 2, 3], [4, 5, 6, 7],
          [0, 1, 2, 3, 4, 5, 6, 7]]
  | _ => []

/-- The mean of some points. -/
def mean {d : Nat} {K : Type} [Field K] (at_ : Nat → Point K d) (l : List Nat) : Point K d :=
  fun c => (l.map fun i => at_ i c).sum / l.length

/-- Number of the node with the given indices (each from 0 to 3) in a Lagrange hexahedron of order three,
`vtkLagrangeHexahedron::PointIndexFromIJK` before version 9.1 (later versions exchange the last two
vertical edges). -/
def lagrangeIndex (i j k : Nat) : Nat :=
  let ib := i = 0 ∨ i = 3
  let jb := j = 0 ∨ j = 3
  let kb := k = 0 ∨ k = 3
  if ib ∧ jb ∧ kb then (if i ≠ 0 then (if j ≠ 0 then 2 else 1) else (if j ≠ 0 then 3 else 0)) + (if k ≠ 0 then 4 else 0)
  else if jb ∧ kb then (i - 1) + (if j ≠ 0 then 4 else 0) + (if k ≠ 0 then 8 else 0) + 8
  else if ib ∧ kb then (j - 1) + (if i ≠ 0 then 2 else 6) + (if k ≠ 0 then 8 else 0) + 8
  else if ib ∧ jb then (k - 1) + 2 * (if i ≠ 0 then (if j ≠ 0 then 3 else 1) else (if j ≠ 0 then 2 else 0)) + 24
  else if ib then (j - 1) + 2 * (k - 1) + (if i ≠ 0 then 4 else 0) + 32
  else if jb then (i - 1) + 2 * (k - 1) + (if j ≠ 0 then 4 else 0) + 40
  else if kb then (i - 1) + 2 * (j - 1) + (if k ≠ 0 then 4 else 0) + 48
  else (i - 1) + 2 * ((j - 1) + 2 * (k - 1)) + 56

end MiniCFD.Spec.Vtk
