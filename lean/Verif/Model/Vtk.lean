import Verif.Model.ShapeHex
import Mathlib.Data.Real.Basic

/-!
# Model of the VTK writer

Covers the node tables, `Prepare` and `Writer::WriteSolutions` of `mini/mesh/vtk.hpp`.  A `.vtu` file is
represented by the arrays which are written into it; how numbers are turned into text, the encoding of the
points (see `Verif.Model.Base64`), field names and the `.pvtu` file are not modelled.  Literals stand for the
rational numbers they denote, `1. / 3` for one third.
-/

namespace MiniCFD.Vtk

open MiniCFD.Shape

/-- vtk.hpp:68-77. -/
inductive CellType
  | tetrahedron4 | hexahedron8 | wedge6 | wedge15 | tetrahedron10 | hexahedron20 | hexahedron27 | hexahedron64
  deriving DecidableEq

/-- The numbers of the enumerators, vtk.hpp:69-76. -/
def CellType.id : CellType → Nat
  | tetrahedron4 => 10
  | hexahedron8 => 12
  | wedge6 => 13
  | wedge15 => 26
  | tetrahedron10 => 24
  | hexahedron20 => 25
  | hexahedron27 => 29
  | hexahedron64 => 72

/-- `Tetrahedron4::locals`, vtk.hpp:109-111. -/
def tetrahedron4 : List (Point ℚ 3) := [![1, 0, 0], ![0, 1, 0], ![0, 0, 1], ![0, 0, 0]]

/-- `Tetrahedron10::locals`, vtk.hpp:124-128. -/
def tetrahedron10 : List (Point ℚ 3) :=
  [![1, 0, 0], ![0, 1, 0], ![0, 0, 1], ![0, 0, 0],
   ![1 / 2, 1 / 2, 0], ![0, 1 / 2, 1 / 2], ![1 / 2, 0, 1 / 2],
   ![1 / 2, 0, 0], ![0, 1 / 2, 0], ![0, 0, 1 / 2]]

/-- `Wedge6::locals`, vtk.hpp:141-148. -/
def wedge6 : List (Point ℚ 3) :=
  [![1, 0, -1], ![0, 0, -1], ![0, 1, -1], ![1, 0, 1], ![0, 0, 1], ![0, 1, 1]]

/-- `Wedge15::locals`, vtk.hpp:161-170. -/
def wedge15 : List (Point ℚ 3) :=
  [![1, 0, -1], ![0, 1, -1], ![0, 0, -1],
   ![1, 0, 1], ![0, 1, 1], ![0, 0, 1],
   ![1 / 2, 1 / 2, -1], ![0, 1 / 2, -1], ![1 / 2, 0, -1],
   ![1 / 2, 1 / 2, 1], ![0, 1 / 2, 1], ![1 / 2, 0, 1],
   ![1, 0, 0], ![0, 1, 0], ![0, 0, 0]]

/-- `Hexahedron8::locals`, vtk.hpp:183-186. -/
def hexahedron8 : List (Point ℚ 3) :=
  [![-1, -1, -1], ![1, -1, -1], ![1, 1, -1], ![-1, 1, -1],
   ![-1, -1, 1], ![1, -1, 1], ![1, 1, 1], ![-1, 1, 1]]

/-- The nodes on edges, vtk.hpp:204-206 and 224-226. -/
def hexahedronEdges : List (Point ℚ 3) :=
  [![0, -1, -1], ![1, 0, -1], ![0, 1, -1], ![-1, 0, -1],
   ![0, -1, 1], ![1, 0, 1], ![0, 1, 1], ![-1, 0, 1],
   ![-1, -1, 0], ![1, -1, 0], ![1, 1, 0], ![-1, 1, 0]]

/-- `Hexahedron20::locals`, vtk.hpp:199-207 (the corners are repeated there). -/
def hexahedron20 : List (Point ℚ 3) := hexahedron8 ++ hexahedronEdges

/-- `Hexahedron27::locals`, vtk.hpp:219-233. -/
def hexahedron27 : List (Point ℚ 3) := hexahedron8 ++ hexahedronEdges ++
  [![-1, 0, 0], ![1, 0, 0], ![0, -1, 0], ![0, 1, 0], ![0, 0, -1], ![0, 0, 1], ![0, 0, 0]]

/-- `a`, vtk.hpp:242. -/
def a : ℚ := 1 / 3

/-- `Hexahedron64::locals`, vtk.hpp:248-280. -/
def hexahedron64 : List (Point ℚ 3) :=
  [![-1, -1, -1], ![1, -1, -1], ![1, 1, -1], ![-1, 1, -1],
   ![-1, -1, 1], ![1, -1, 1], ![1, 1, 1], ![-1, 1, 1],
   ![-a, -1, -1], ![a, -1, -1], ![1, -a, -1], ![1, a, -1],
   ![-a, 1, -1], ![a, 1, -1], ![-1, -a, -1], ![-1, a, -1],
   ![-a, -1, 1], ![a, -1, 1], ![1, -a, 1], ![1, a, 1],
   ![-a, 1, 1], ![a, 1, 1], ![-1, -a, 1], ![-1, a, 1],
   ![-1, -1, -a], ![-1, -1, a], ![1, -1, -a], ![1, -1, a],
   ![-1, 1, -a], ![-1, 1, a], ![1, 1, -a], ![1, 1, a],
   ![-1, -a, -a], ![-1, a, -a], ![-1, -a, a], ![-1, a, a],
   ![1, -a, -a], ![1, a, -a], ![1, -a, a], ![1, a, a],
   ![-a, -1, -a], ![a, -1, -a], ![-a, -1, a], ![a, -1, a],
   ![-a, 1, -a], ![a, 1, -a], ![-a, 1, a], ![a, 1, a],
   ![-a, -a, -1], ![a, -a, -1], ![-a, a, -1], ![a, a, -1],
   ![-a, -a, 1], ![a, -a, 1], ![-a, a, 1], ![a, a, 1],
   ![-a, -a, -a], ![a, -a, -a], ![-a, a, -a], ![a, a, -a],
   ![-a, -a, a], ![a, -a, a], ![-a, a, a], ![a, a, a]]

/-- The table which `Writer::Prepare` selects, vtk.hpp:346-380. -/
def CellType.locals : CellType → List (Point ℚ 3)
  | tetrahedron4 => Vtk.tetrahedron4
  | hexahedron8 => Vtk.hexahedron8
  | wedge6 => Vtk.wedge6
  | wedge15 => Vtk.wedge15
  | tetrahedron10 => Vtk.tetrahedron10
  | hexahedron20 => Vtk.hexahedron20
  | hexahedron27 => Vtk.hexahedron27
  | hexahedron64 => Vtk.hexahedron64

/-- `Writer::GetCellType`, vtk.hpp:290-307.  Other numbers of corners are asserted against; without
assertions the result is indeterminate. -/
def getCellType : Nat → Option CellType
  | 4 => some .tetrahedron10
  | 6 => some .wedge15
  | 8 => some .hexahedron27
  | _ => none

/-- `Writer::CountNodes`, vtk.hpp:308-340. -/
def countNodes : CellType → Nat
  | .tetrahedron4 => 4
  | .tetrahedron10 => 10
  | .wedge6 => 6
  | .wedge15 => 15
  | .hexahedron8 => 8
  | .hexahedron20 => 20
  | .hexahedron27 => 27
  | .hexahedron64 => 64

/-- What the writer asks a cell: `CountCorners()` and `projection().LocalToGlobalAndValue`. -/
structure Cell (G V : Type) where
  corners : Nat
  map : Point ℚ 3 → G
  value : Point ℚ 3 → V

/-- The vectors `types`, `coords` and `values`, vtk.hpp:392-394. -/
structure State (G V : Type) where
  types : List CellType
  coords : List G
  values : List V

variable {G V : Type}

/-- `vtk::Prepare`, vtk.hpp:79-88: `n` entries of the table are read. -/
def fill (locals : List (Point ℚ 3)) (n : Nat) (cell : Cell G V) (s : State G V) : Option (State G V) :=
  (List.range n).foldlM (fun s i => do
    let x ← locals[i]?
    some { s with coords := s.coords ++ [cell.map x], values := s.values ++ [cell.value x] }) s

/-- `Writer::Prepare`, vtk.hpp:342-384.  The numbers of nodes are literals there; they are the same as in
`countNodes`. -/
def prepare (s : State G V) (cell : Cell G V) : Option (State G V) := do
  let type ← getCellType cell.corners
  fill type.locals (countNodes type) cell { s with types := s.types ++ [type] }

/-- What a `.vtu` file holds. -/
structure Piece (G : Type) where
  numberOfPoints : Nat
  numberOfCells : Nat
  pointData : List (List ℝ)
  points : List G
  connectivity : List Nat
  offsets : List Nat
  types : List Nat

/-- The loop over `types` which writes offsets, vtk.hpp:466-470. -/
def offsets : Nat → List CellType → List Nat
  | _, [] => []
  | off, t :: ts => (off + countNodes t) :: offsets (off + countNodes t) ts

/-- The body of the file, vtk.hpp:415-484, from the vectors. -/
noncomputable def piece {K : Nat} (s : State G (Fin K → ℝ)) : Piece G where
  numberOfPoints := s.coords.length
  numberOfCells := s.types.length
  pointData := (List.finRange K).map fun k => s.values.map fun f => f k
  points := s.coords
  connectivity := List.range s.coords.length
  offsets := offsets 0 s.types
  types := s.types.map CellType.id

/-- `Writer::WriteSolutions`, vtk.hpp:390-485.  `values[0]` (line 427) is undefined when the part has no
cells. -/
noncomputable def writeSolutions {K : Nat} (cells : List (Cell G (Fin K → ℝ))) : Option (Piece G) := do
  let s : State G (Fin K → ℝ) ← cells.foldlM prepare ⟨[], [], []⟩
  if s.values.isEmpty then none else some (piece s)

end MiniCFD.Vtk
