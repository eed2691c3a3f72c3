import Verif.Model.ShapeHex

/-!
# Sorting the nodes of a face

Model of `SortNodesOnFace` of all cell classes (`mini/geometry/{tetrahedron,pyramid,wedge,hexahedron}.hpp`).

* `cell_nodes` is the list of the global numbers of the nodes of a cell, `face_nodes` the list of those
  of a face, of length `face_n_node`.
* A failed `assert` (after which `i_face` would be read uninitialised) and every read or write outside of
  an array give `none`.
* The template function of the same name (cell.hpp:266-289), which copies to and from arrays of `size_t`
  when the integer types differ in size, is the identity on the values it passes on and is not modelled.
-/

namespace MiniCFD.SortNodes

open MiniCFD.Shape

/-- `for (f) face_nodes[f] = cell_nodes[row[f]]`. -/
def pick (cell : List Nat) (row : List Nat) : Option (List Nat) := row.mapM (cell[·]?)

/-- The loop `while (cnt < 3)` of tetrahedron.hpp:79-90 and hexahedron.hpp:84-95 over the flags "this node
of the cell is on the face": the sum of the first three flagged indices. -/
def scan : (cnt c sum : Nat) → List Bool → Option Nat
  | cnt, _, sum, [] => if cnt < 3 then none else some sum
  | cnt, c, sum, flag :: rest =>
    if cnt < 3 then
      if flag then scan (cnt + 1) (c + 1) (sum + c) rest else scan cnt (c + 1) sum rest
    else some sum

/-- `face_nodes[f] == cell_nodes[c]` for some `f`, for each `c`: the inner loop of the above. -/
def flags (cell face : List Nat) : List Bool := cell.map fun v => face.contains v

/-- The inner loop `for (c < m) if (cell_nodes[c] == face_nodes[f]) { ...; break; }` for each `f`,
tetrahedron.hpp:185-192, pyramid.hpp:51-58, wedge.hpp:63-70: the first matching `c`. -/
def marks (cell : List Nat) (m : Nat) (face : List Nat) : List (Option Nat) :=
  face.map fun v => (cell.take m).findIdx? (· == v)

/-- `Tetrahedron4::faces_`, tetrahedron.hpp:145-150. -/
def tetrahedron4Faces : List (List Nat) := [[0, 2, 1], [0, 1, 3], [0, 3, 2], [1, 2, 3]]

/-- `Tetrahedron4::SortNodesOnFace`, tetrahedron.hpp:75-95. -/
def tetrahedron4 (cell face : List Nat) : Option (List Nat) :=
  if face.length = 3 then do
    let sum ← scan 0 0 0 (flags cell face)
    let row ← if 3 ≤ sum then tetrahedron4Faces[sum - 3]? else none
    pick cell row
  else none

/-- `Tetrahedron10::faces_`, tetrahedron.hpp:311-316. -/
def tetrahedron10Faces : List (List Nat) :=
  [[0, 2, 1, 6, 5, 4], [0, 1, 3, 4, 8, 7], [0, 3, 2, 7, 9, 6], [1, 2, 3, 5, 9, 8]]

/-- The decisions of tetrahedron.hpp:194-208. -/
def tetrahedron10Id (cnt : Nat → Bool) : Option Nat :=
  if cnt 0 then
    if cnt 1 then
      if cnt 2 then some 0 else if cnt 3 then some 1 else none
    else if cnt 2 && cnt 3 then some 2 else none
  else if cnt 1 && cnt 2 && cnt 3 then some 3 else none

/-- `Tetrahedron10::SortNodesOnFace`, tetrahedron.hpp:180-212. -/
def tetrahedron10 (cell face : List Nat) : Option (List Nat) :=
  if face.length = 6 then do
    let i ← tetrahedron10Id fun c => (marks cell 4 face).contains (some c)
    let row ← tetrahedron10Faces[i]?
    pick cell row
  else none

/-- `Pyramid::GetFaceId`, pyramid.hpp:48-78. -/
def pyramidId (cell face : List Nat) : Option Nat :=
  let cnt : Nat → Bool := fun c => c == 4 || (marks cell 4 face).contains (some c)
  if ([0, 1, 2, 3, 4].map fun c => (cnt c).toNat).sum = 3 then
    if cnt 0 then
      if cnt 1 then some 0 else if cnt 3 then some 3 else none
    else if cnt 2 then
      if cnt 1 then some 1 else if cnt 3 then some 2 else none
    else none
  else none

/-- `Pyramid5::faces_`, pyramid.hpp:195-202. -/
def pyramid5Faces : List (List Nat) := [[0, 1, 4], [1, 2, 4], [2, 3, 4], [3, 0, 4]]

/-- `Pyramid5::SortNodesOnFace`, pyramid.hpp:107-121: any other number of nodes is taken for the bottom,
whose four entries are overwritten. -/
def pyramid5 (cell face : List Nat) : Option (List Nat) :=
  if face.length = 3 then do
    let i ← pyramidId cell face
    let row ← pyramid5Faces[i]?
    pick cell row
  else if 4 ≤ face.length then do
    let bottom ← pick cell [0, 3, 2, 1]
    some (bottom ++ face.drop 4)
  else none

/-- `Pyramid13::faces_`, pyramid.hpp:389-396. -/
def pyramid13Faces : List (List Nat) :=
  [[0, 1, 4, 5, 10, 9], [1, 2, 4, 6, 11, 10], [2, 3, 4, 7, 12, 11], [3, 0, 4, 8, 9, 12]]

/-- `Pyramid13::SortNodesOnFace`, pyramid.hpp:234-253. -/
def pyramid13 (cell face : List Nat) : Option (List Nat) :=
  if face.length = 6 then do
    let i ← pyramidId cell face
    let row ← pyramid13Faces[i]?
    pick cell row
  else if face.length = 8 then pick cell [0, 3, 2, 1, 8, 7, 6, 5]
  else none

/-- `Pyramid14::SortNodesOnFace`, pyramid.hpp:423-443. -/
def pyramid14 (cell face : List Nat) : Option (List Nat) :=
  if face.length = 6 then do
    let i ← pyramidId cell face
    let row ← pyramid13Faces[i]?
    pick cell row
  else if face.length = 9 then pick cell [0, 3, 2, 1, 8, 7, 6, 5, 13]
  else none

/-- `Wedge::GetTriangleId`, wedge.hpp:48-58; `none` when `cell_nodes[4]` does not exist. -/
def triangleId (cell face : List Nat) : Option Nat :=
  cell[4]?.map fun v => if face.contains v then 1 else 0

/-- `Wedge::GetQuadrangleId`, wedge.hpp:60-79. -/
def quadrangleId (cell face : List Nat) : Option Nat :=
  match ((marks cell 3 face).map fun c => c.getD 0).sum with
  | 1 => some 0
  | 2 => some 2
  | 3 => some 1
  | _ => none

/-- The shape of `SortNodesOnFace` of all wedges, wedge.hpp:109-123, 250-264 and 465-479. -/
def wedge (nTriangle nQuadrangle : Nat) (triangles quadrangles : List (List Nat))
    (cell face : List Nat) : Option (List Nat) :=
  if face.length = nTriangle then do
    let i ← triangleId cell face
    let row ← triangles[i]?
    pick cell row
  else if face.length = nQuadrangle then do
    let i ← quadrangleId cell face
    let row ← quadrangles[i]?
    pick cell row
  else none

/-- `Wedge6::SortNodesOnFace` with its tables, wedge.hpp:207-217. -/
def wedge6 : List Nat → List Nat → Option (List Nat) :=
  wedge 3 4 [[0, 2, 1], [3, 4, 5]] [[0, 1, 4, 3], [1, 2, 5, 4], [0, 3, 5, 2]]

/-- `Wedge15::triangles_`, wedge.hpp:427-430. -/
def wedge15Triangles : List (List Nat) := [[0, 2, 1, 8, 7, 6], [3, 4, 5, 12, 13, 14]]

/-- `Wedge15::SortNodesOnFace` with its tables, wedge.hpp:427-437. -/
def wedge15 : List Nat → List Nat → Option (List Nat) :=
  wedge 6 8 wedge15Triangles
    [[0, 1, 4, 3, 6, 10, 12, 9], [1, 2, 5, 4, 7, 11, 13, 10], [0, 3, 5, 2, 9, 14, 11, 8]]

/-- `Wedge18::SortNodesOnFace` with its tables, wedge.hpp:663-667. -/
def wedge18 : List Nat → List Nat → Option (List Nat) :=
  wedge 6 9 wedge15Triangles
    [[0, 1, 4, 3, 6, 10, 12, 9, 15], [1, 2, 5, 4, 7, 11, 13, 10, 16], [0, 3, 5, 2, 9, 14, 11, 8, 17]]

/-- `Hexahedron::GetFaceId`, hexahedron.hpp:82-114. -/
def hexahedronId (cell face : List Nat) : Option Nat := do
  match ← scan 0 0 0 (flags cell face) with
  | 3 => some 0
  | 5 => some 1
  | 7 => some 4
  | 8 => some 2
  | 11 => some 3
  | 15 => some 5
  | _ => none

/-- `Hexahedron27::faces_`, hexahedron.hpp:369-381. -/
def hexahedronFaces : List (List Nat) :=
  [[0, 3, 2, 1, 11, 10, 9, 8, 20], [0, 1, 5, 4, 8, 13, 16, 12, 21], [1, 2, 6, 5, 9, 14, 17, 13, 22],
    [2, 3, 7, 6, 10, 15, 18, 14, 23], [0, 4, 7, 3, 12, 19, 15, 11, 24], [4, 5, 6, 7, 16, 17, 18, 19, 25]]

/-- `SortNodesOnFace` of all hexahedra, hexahedron.hpp:173-180, 408-415, 556-563 and 837-844: `m` is the
number of nodes the class asserts, and the first `m` entries of the row are read. -/
def hexahedron (m : Nat) (cell face : List Nat) : Option (List Nat) :=
  if face.length = m then do
    let i ← hexahedronId cell face
    let row ← hexahedronFaces[i]?
    pick cell (row.take m)
  else none

/-- `SortNodesOnFace` of each class of cells. -/
def sortNodes : Kind → List Nat → List Nat → Option (List Nat)
  | .tetrahedron4 => tetrahedron4
  | .tetrahedron10 => tetrahedron10
  | .pyramid5 => pyramid5
  | .pyramid13 => pyramid13
  | .pyramid14 => pyramid14
  | .wedge6 => wedge6
  | .wedge15 => wedge15
  | .wedge18 => wedge18
  | .hexahedron8 => hexahedron 4
  | .hexahedron20 => hexahedron 8
  | .hexahedron26 => hexahedron 9
  | .hexahedron27 => hexahedron 9
  | _ => fun _ _ => none

end MiniCFD.SortNodes
