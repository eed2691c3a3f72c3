import Mathlib.Order.Defs.LinearOrder
import Mathlib.Data.Nat.Basic
import Mathlib.Data.List.Sort

/-
Model of the renumbering code in /repo/include/mini/mesh/shuffler.hpp.

A C++ array is a `List`; an access outside it (undefined behaviour for `[]`, an
exception for `.at`) makes the whole operation `none`.
-/
namespace MiniCFD.Shuffle

variable {T : Type} [LinearOrder T] {α : Type}

/-- The comparison `cmp` of `GetNewOrder` (shuffler.hpp:41-43).  `getNewOrder` only
compares indices inside `parts`; the last three cases (reads outside the array) are
there to make the function total and are never used. -/
def cmp (parts : List T) (lid rid : Nat) : Bool :=
  match parts[lid]?, parts[rid]? with
  | some l, some r => decide (l < r) || (decide (l = r) && decide (lid < rid))
  | some _, none => true
  | none, some _ => false
  | none, none => decide (lid < rid)

/-- One pass `old_to_new[new_to_old[i]] = i` (shuffler.hpp:45-46), `i` counting up
from the given start. -/
def invertLoop : List Nat → Nat → List Nat → Option (List Nat)
  | [], _, acc => some acc
  | j :: js, i, acc =>
    if j < acc.length then invertLoop js (i + 1) (acc.set j i) else none

/-- `GetNewOrder` (shuffler.hpp:35-48): `(new_to_old, old_to_new)`.
Simplified: `std::sort` with the strict total order `cmp` is any sorting function
(insertion sort here): the sorted sequence of distinct keys is unique. -/
def getNewOrder (parts : List T) : Option (List Nat × List Nat) := do
  let n := parts.length
  let newToOld := (List.range n).insertionSort (fun a b => cmp parts b a = false)
  let oldToNew ← invertLoop newToOld 0 (List.replicate n 0)
  return (newToOld, oldToNew)

/-- Read `data[off + j]` for each index `j` of a list. -/
def gather (off : Nat) (idx : List Nat) (data : List α) : Option (List α) :=
  idx.mapM (fun j => data[off + j]?)

/-- `memcpy(old_data, new_data, n)`: overwrite `new.length` items from `off`. -/
def overwrite (off : Nat) (new data : List α) : Option (List α) :=
  if off + new.length ≤ data.length then
    some (data.take off ++ new ++ data.drop (off + new.length))
  else none

/-- `ShuffleData(new_to_old, &data[off])` (shuffler.hpp:56-63). -/
def shuffleData (newToOld : List Nat) (off : Nat) (data : List α) : Option (List α) := do
  let new ← gather off newToOld data
  overwrite off new data

/-- First loop of `ShuffleConnectivity` (shuffler.hpp:91-95): renumber the 1-based node
ids through `old_to_new_for_nodes.at(old_nid - 1) + 1`. `old_nid - 1` of `0` wraps to a
huge index in C++ and throws, hence `none`. -/
def renumber (oldToNew : List Nat) (conn : List Nat) : Option (List Nat) :=
  conn.mapM (fun nid => if nid = 0 then none else (oldToNew[nid - 1]?).map (· + 1))

/-- Second loop of `ShuffleConnectivity` (shuffler.hpp:97-103): copy `npe` ids starting
at `npe * new_to_old_for_cells[new_cid]` for each cell. -/
def permuteRows (newToOldCells : List Nat) (npe : Nat) (conn : List Nat) :
    Option (List Nat) := do
  let rows ← newToOldCells.mapM (fun c => gather (npe * c) (List.range npe) conn)
  return rows.flatten

/-- `ShuffleConnectivity` (shuffler.hpp:84-104); reads the first `n_cells * npe` ids. -/
def shuffleConnectivity (oldToNewNodes newToOldCells : List Nat) (npe : Nat)
    (conn : List Nat) : Option (List Nat) := do
  let n := newToOldCells.length * npe
  if n ≤ conn.length then
    let renamed ← renumber oldToNewNodes (conn.take n)
    let new ← permuteRows newToOldCells npe renamed
    overwrite 0 new conn
  else none

/-- A section of a zone as far as shuffling is concerned (cgns.hpp `Section`):
nodes per element, first element id, flat 1-based connectivity, and for each element
the part used to sort it: the slice of `cell_parts_` for a section of cells, the
vector made by `FillFaceParts` for a section of faces. -/
structure Sect where
  npe : Nat
  isCell : Bool
  rangeMin : Nat
  conn : List Nat
  parts : List Nat

/-- A zone: coordinate arrays, node fields and cell fields (CGNS element id `i` is at
position `i - 1`), sections, and the slice of `node_parts_` of its nodes. -/
structure Zone (α : Type) where
  x : List α
  y : List α
  z : List α
  nodeFields : List (List α)
  cellFields : List (List α)
  sects : List Sect
  nodeParts : List Nat

/-- Result of one section: its new connectivity, the zone's cell fields afterwards. -/
def shuffleSect (oldToNewNodes : List Nat) (s : Sect) (fields : List (List α)) :
    Option (Sect × List (List α)) := do
  let (n2o, _) ← getNewOrder s.parts
  let conn ← shuffleConnectivity oldToNewNodes n2o s.npe s.conn
  if s.isCell then
    -- shuffler.hpp:300-310: `&(field.at(range_min))`
    if s.rangeMin = 0 then none else
    let fields' ← fields.mapM (shuffleData n2o (s.rangeMin - 1))
    return ({ s with conn := conn }, fields')
  else
    -- shuffler.hpp:282-290: `continue` for lower-dimensional sections
    return ({ s with conn := conn }, fields)

/-- The loop over sections (shuffler.hpp:276-311). -/
def shuffleSects (oldToNewNodes : List Nat) :
    List Sect → List (List α) → Option (List Sect × List (List α))
  | [], fields => some ([], fields)
  | s :: ss, fields => do
    let (s', fields') ← shuffleSect oldToNewNodes s fields
    let (ss', fields'') ← shuffleSects oldToNewNodes ss fields'
    return (s' :: ss', fields'')

/-- The body of the zone loop of `Shuffler::Shuffle` (shuffler.hpp:251-312) without the
two index maps, which are treated in `Verif.Model.Mapper`.  The map-independent part
touches one zone only, so zones are modelled one at a time. -/
def shuffleZone (zn : Zone α) : Option (Zone α) := do
  let (n2o, o2n) ← getNewOrder zn.nodeParts
  let x ← shuffleData n2o 0 zn.x
  let y ← shuffleData n2o 0 zn.y
  let z ← shuffleData n2o 0 zn.z
  let nodeFields ← zn.nodeFields.mapM (shuffleData n2o 0)
  let (sects, cellFields) ← shuffleSects o2n zn.sects zn.cellFields
  return { zn with x := x, y := y, z := z, nodeFields := nodeFields,
                   cellFields := cellFields, sects := sects }

end MiniCFD.Shuffle
