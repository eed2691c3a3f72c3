import Verif.Model.Faces

/-!
# Model of the assignment of faces to parts

Covers `Shuffler::FillFaceParts` of `include/mini/mesh/shuffler.hpp` (lines 150-239).

An `unordered_map` which counts is an association list (`Faces.tally`), visited in an order that is left open.
`Mapper::cgns_to_metis_for_nodes.at(i_zone)` is a partial function.  Elements carry their number: for cells, that of
METIS, as found by `i_cell_to_m_cell.at(i_cell)`.
-/

namespace MiniCFD.FaceParts

open MiniCFD.Faces (Order tally)

/-- A section: its dimension, and for each element its number and its nodes in the numbering of the zone. -/
structure Sect where
  dim : Nat
  elems : List (Nat × List Nat)

/-- A zone: `cgns_to_metis_for_nodes.at(i_zone)` and its sections. -/
structure Zone where
  nodeMap : Nat → Option Nat
  sects : List Sect

/-- The base: `GetCellDim()` and its zones. -/
structure Grid where
  dim : Nat
  zones : List Zone

/-- `node_user_cells[m_node].emplace_back(m_cell)`, shuffler.hpp:179; undefined beyond the vector. -/
def addUser (m : Nat) (users : List (List Nat)) (n : Nat) : Option (List (List Nat)) :=
  if n < users.length then some (users.modify n (· ++ [m])) else none

/-- The loop over the nodes of a cell, shuffler.hpp:176-180. -/
def addCell (z : Zone) (users : List (List Nat)) (e : Nat × List Nat) : Option (List (List Nat)) :=
  e.2.foldlM (fun users i => do
    let n ← z.nodeMap i
    addUser e.1 users n) users

/-- One section, shuffler.hpp:164-184. -/
def addSect (dim : Nat) (z : Zone) (users : List (List Nat)) (s : Sect) : Option (List (List Nat)) :=
  if s.dim = dim then s.elems.foldlM (addCell z) users else some users

/-- `node_user_cells`, shuffler.hpp:158-187; `n` is `node_parts_.size()`. -/
def buildUsers (g : Grid) (n : Nat) : Option (List (List Nat)) :=
  g.zones.foldlM (fun users z => z.sects.foldlM (addSect g.dim z) users) (List.replicate n [])

/-- The cells in `face_user_cell_cnts`, as often as they are counted, shuffler.hpp:206-213. -/
def faceUsers (z : Zone) (users : List (List Nat)) (face : List Nat) : Option (List Nat) :=
  face.foldlM (fun l i => do
    let n ← z.nodeMap i
    let u ← users[n]?
    some (l ++ u)) []

/-- One round of the loop over `face_user_cell_cnts`, shuffler.hpp:216-222: the entry of `i_face_to_part` and the length
of `npe_cells`.  `debug` says whether assertions are checked. -/
def visit (debug : Bool) (parts : List Nat) (npe : Nat) (s : Nat × Nat) (e : Nat × Nat) : Option (Nat × Nat) :=
  if debug && decide (npe < e.2) then none
  else if e.2 = npe then do
    let p ← parts[e.1]?
    some (p, s.2 + 1)
  else some s

/-- One face, shuffler.hpp:204-229; `parts` is `cell_parts_`.  The entry of a new `ShiftedVector` is zero. -/
def facePart (debug : Bool) (order : Order) (parts : List Nat) (z : Zone) (users : List (List Nat)) (face : List Nat) :
    Option Nat := do
  let l ← faceUsers z users face
  let s ← (order (tally l)).foldlM (visit debug parts face.length) (0, 0)
  if debug && decide (s.2 ≠ 1) then none else some s.1

/-- `FillFaceParts`, shuffler.hpp:150-239: `face_parts_` for each zone and section.  (Sections of other dimensions have
no entry; here their entry is empty.) -/
def fillFaceParts (debug : Bool) (order : Order) (parts : List Nat) (n : Nat) (g : Grid) :
    Option (List (List (List Nat))) := do
  let users ← buildUsers g n
  g.zones.mapM fun z => z.sects.mapM fun s =>
    if s.dim + 1 = g.dim then s.elems.mapM fun e => facePart debug order parts z users e.2 else some []

end MiniCFD.FaceParts
