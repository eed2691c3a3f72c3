import Verif.Model.SortNodes
import Verif.Model.Tables

/-!
# Building the faces of a part

Model of `Part::BuildLocalFaces`, `BuildGhostFaces` and `BuildBoundaryFaces` (mini/mesh/part.hpp:992-1079,
1440-1533), of the containers they fill and of the views on them (1358-1400).

Reading the sections from the file is left out: a section comes with its name and the nodes of its faces.  The
coordinates of nodes (`GetCoord`) are not needed here, see `Verif.Model.GhostSetup`.  Pointers to cells are `Ref`s,
pointers to faces are `Ptr`s.  The order in which a `std::unordered_map` is walked is a parameter `order`, of which
it is only assumed that it permutes the entries.  Undefined behaviour and exceptions are `none`.
-/

namespace MiniCFD.Faces

open MiniCFD.Shape

/-- `cgns::CellIndex` without the number of nodes, cgns.hpp:118-135. -/
structure Index where
  zone : Nat
  sect : Nat
  cell : Nat
  deriving DecidableEq

/-- A pointer to a cell: into `local_cells_` or into `ghost_cells_`, part.hpp:1413-1422. -/
inductive Ref
  | loc (i : Index)
  | ghost (m : Nat)
  deriving DecidableEq

/-- A pointer to a face: into `local_faces_` or into `ghost_faces_`, part.hpp:1425-1426. -/
inductive Ptr
  | loc (i : Nat)
  | ghost (i : Nat)
  deriving DecidableEq

/-- `part::Face`, part.hpp:104-132: `nodes` are those given to the surface element of class `kind`, whose
coordinates are looked up in `zone`. -/
structure Face where
  id : Nat
  zone : Nat
  kind : Kind
  nodes : List Nat
  holder : Ref
  sharer : Option Ref

/-- A cell of `local_cells_` with its row of `connectivities_` and its `metis_id`. -/
structure LocalCell where
  m : Nat
  at' : Index
  nodes : List Nat
  deriving DecidableEq

/-- What is known before faces are built: the cells of the part, in the order of `local_cells_`, and the nodes
received for each ghost cell (`m_to_recv_cells`, `recv_cells`). -/
structure Mesh where
  cells : List LocalCell
  ghosts : Nat → Option (List Nat)

/-- `m_to_cell_index_`, part.hpp:1410; a key which is not there is modelled as an error (`operator[]` would add an
index of zeros). -/
def Mesh.index (mesh : Mesh) (m : Nat) : Option Index := (mesh.cells.find? (·.m = m)).map (·.at')

/-- The nodes of a local cell in `connectivities_`; `none` if there is no such cell. -/
def Mesh.row (mesh : Mesh) (i : Index) : Option (List Nat) := (mesh.cells.find? (·.at' = i)).map (·.nodes)

/-- The order in which a hash map is walked. -/
abbrev Order := List (Nat × Nat) → List (Nat × Nat)

/-- `++map[x]`. -/
def bump (x : Nat) : List (Nat × Nat) → List (Nat × Nat)
  | [] => [(x, 1)]
  | (y, n) :: t => if x = y then (y, n + 1) :: t else (y, n) :: bump x t

/-- A map which counts the entries of a list. -/
def tally (l : List Nat) : List (Nat × Nat) := l.foldl (fun t x => bump x t) []

/-- The common nodes of holder and sharer, part.hpp:999-1016 and 1046-1063. -/
def commonNodes (order : Order) (holder sharer : List Nat) : List Nat :=
  ((order (tally (holder ++ sharer))).filter fun e => e.2 = 2).map (·.1)

/-- `SortNodesOnFace` of the holder and `BuildGaussForFace`, part.hpp:1026-1029 and 1070-1073.  The class of the
holder is that of `BuildGaussForCell`; null pointers are dereferenced by the constructor of `Face` (part.hpp:132). -/
def sortFace (holder face : List Nat) : Option (Kind × List Nat) := do
  let k ← Tables.buildGaussForCell holder.length
  let sorted ← SortNodes.sortNodes k holder face
  let f ← Tables.buildGaussForFace face.length
  some (f, sorted)

/-- `local_faces_`, `ghost_faces_` and the members `adj_cells_`, `adj_faces_` of cells. -/
structure State where
  localFaces : List Face := []
  ghostFaces : List Face := []
  adjCells : Ref → List Ref := fun _ => []
  adjFaces : Ref → List Ptr := fun _ => []

/-- `emplace_back` on a member of the cell `r`. -/
def push {α : Type} (f : Ref → List α) (r : Ref) (x : α) : Ref → List α := fun r' => if r' = r then f r' ++ [x] else f r'

/-- One round of `BuildLocalFaces`, part.hpp:994-1034.  The sharer is looked up in the zone of the holder. -/
def localStep (order : Order) (mesh : Mesh) (st : State) (pair : Nat × Nat) : Option State := do
  let h ← mesh.index pair.1
  let s ← mesh.index pair.2
  let s' : Index := { s with zone := h.zone }
  let holderNodes ← mesh.row h
  let sharerNodes ← mesh.row s'
  let (kind, nodes) ← sortFace holderNodes (commonNodes order holderNodes sharerNodes)
  let ptr := Ptr.loc st.localFaces.length
  let face : Face := ⟨st.localFaces.length, h.zone, kind, nodes, .loc h, some (.loc s')⟩
  some { st with
    localFaces := st.localFaces ++ [face]
    adjCells := push (push st.adjCells (.loc h) (.loc s')) (.loc s') (.loc h)
    adjFaces := push (push st.adjFaces (.loc h) ptr) (.loc s') ptr }

/-- `BuildLocalFaces`, part.hpp:992-1035. -/
def buildLocalFaces (order : Order) (mesh : Mesh) (pairs : List (Nat × Nat)) (st : State) : Option State :=
  pairs.foldlM (localStep order mesh) st

/-- One round of `BuildGhostFaces`, part.hpp:1041-1078. -/
def ghostStep (order : Order) (mesh : Mesh) (st : State) (pair : Nat × Nat) : Option State := do
  let h ← mesh.index pair.1
  let holderNodes ← mesh.row h
  let sharerNodes ← mesh.ghosts pair.2
  let (kind, nodes) ← sortFace holderNodes (commonNodes order holderNodes sharerNodes)
  let face : Face :=
    ⟨st.localFaces.length + st.ghostFaces.length, h.zone, kind, nodes, .loc h, some (.ghost pair.2)⟩
  some { st with
    ghostFaces := st.ghostFaces ++ [face]
    adjCells := push st.adjCells (.loc h) (.ghost pair.2)
    adjFaces := push st.adjFaces (.loc h) (.ghost st.ghostFaces.length) }

/-- `BuildGhostFaces`, part.hpp:1036-1079. -/
def buildGhostFaces (order : Order) (mesh : Mesh) (pairs : List (Nat × Nat)) (st : State) : Option State :=
  pairs.foldlM (ghostStep order mesh) st

/-- `Face::other`, part.hpp:172-175. -/
def Face.other (f : Face) (r : Ref) : Option Ref := if r = f.holder then f.sharer else some f.holder

/-- The face behind a pointer. -/
def State.face (st : State) : Ptr → Option Face
  | .loc i => st.localFaces[i]?
  | .ghost i => st.ghostFaces[i]?

/-! ### Boundary faces -/

/-- A line of the partition file together with what is read from the section it names, part.hpp:1463-1489. -/
structure Line where
  zone : Nat
  sect : Nat
  name : String
  npe : Nat
  faces : List (List Nat)

/-- `bound_faces_`, the numbers of faces given out so far, and `name_to_z_s` (latest entry first). -/
structure Bound where
  faces : List ((Nat × Nat) × List Face) := []
  next : Nat
  names : List (String × Nat × Nat) := []

/-- `[i_zone][i_node]` of the map from nodes to the cells using them, part.hpp:1442-1457. -/
def users (mesh : Mesh) (zone node : Nat) : List Nat :=
  mesh.cells.flatMap fun c => if c.at'.zone = zone then (c.nodes.filter (· = node)).map fun _ => c.m else []

/-- The search for the cell that holds a face, part.hpp:1494-1500. -/
def holderOf (order : Order) (mesh : Mesh) (zone npe : Nat) (face : List Nat) : Option Nat :=
  ((order (tally (face.flatMap (users mesh zone)))).find? fun e => e.2 = npe).map (·.1)

/-- Before, for the nested maps of `bound_faces_`. -/
def before (a b : Nat × Nat) : Bool := a.1 < b.1 || (a.1 == b.1 && a.2 < b.2)

/-- `bound_faces_[i_zone][i_sect]`, with `g` applied to the vector found or created there. -/
def alter (k : Nat × Nat) (g : List Face → List Face) :
    List ((Nat × Nat) × List Face) → List ((Nat × Nat) × List Face)
  | [] => [(k, g [])]
  | e :: t => if e.1 = k then (k, g e.2) :: t else if before k e.1 then (k, g []) :: e :: t else e :: alter k g t

/-- One boundary face, part.hpp:1491-1524.  `holder_ptr` is uninitialised when no cell holds the face: `none`. -/
def boundaryFace (order : Order) (mesh : Mesh) (line : Line) (b : Bound) (face : List Nat) : Option Bound := do
  let m ← holderOf order mesh line.zone line.npe face
  let i ← mesh.index m
  let holderNodes ← mesh.row i
  let (kind, nodes) ← sortFace holderNodes face
  let f : Face := ⟨b.next, line.zone, kind, nodes, .loc i, none⟩
  some { b with
    faces := alter (line.zone, line.sect) (· ++ [f]) b.faces
    next := b.next + 1 }

/-- One line, part.hpp:1463-1526. -/
def boundaryLine (order : Order) (mesh : Mesh) (b : Bound) (line : Line) : Option Bound :=
  line.faces.foldlM (boundaryFace order mesh line) { b with
    faces := alter (line.zone, line.sect) id b.faces, names := (line.name, line.zone, line.sect) :: b.names }

/-- `BuildBoundaryFaces`, part.hpp:1440-1533. -/
def buildBoundaryFaces (order : Order) (mesh : Mesh) (lines : List Line) (st : State) : Option Bound :=
  lines.foldlM (boundaryLine order mesh) { next := st.localFaces.length + st.ghostFaces.length }

/-- `GetBoundaryFaces()`, part.hpp:1393-1400. -/
def Bound.all (b : Bound) : List Face := b.faces.flatMap (·.2)

/-- `GetBoundaryFaces(name)`, part.hpp:1380-1387, with `name_to_faces_` as filled in 1528-1532; `none` for the
exception thrown by `at`. -/
def Bound.named (b : Bound) (name : String) : Option (List Face) := do
  let e ← b.names.find? fun e => e.1 = name
  let f ← b.faces.find? fun f => f.1 = e.2
  some f.2

/-- The constructor from `BuildLocalFaces` on, part.hpp:488-490. -/
def build (order : Order) (mesh : Mesh) (locals ghosts : List (Nat × Nat)) (lines : List Line) :
    Option (State × Bound) := do
  let st ← buildLocalFaces order mesh locals {}
  let st ← buildGhostFaces order mesh ghosts st
  let b ← buildBoundaryFaces order mesh lines st
  some (st, b)

end MiniCFD.Faces
