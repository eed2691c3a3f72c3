import Mathlib.Data.Nat.Basic

/-
Model of `metis::GetNodeParts` (/repo/include/mini/mesh/metis.hpp) and of the index slices
made by `Shuffler::WritePartitionInfo` (/repo/include/mini/mesh/shuffler.hpp).
Accesses outside an array give `none`.
-/
namespace MiniCFD.Partition

/-- The inner loop of `GetNodeParts` (metis.hpp:327-333): `k` more nodes of the current cell,
read through the running pointer `q` into `cell_idx`. Returns `node_parts` and the pointer. -/
def nodeLoop (idx : List Nat) (part : Nat) : Nat → Nat → List Nat → Option (List Nat × Nat)
  | 0, q, parts => some (parts, q)
  | k + 1, q, parts => do
    let n ← idx[q]?
    let old ← parts[n]?
    nodeLoop idx part k (q + 1) (if part < old then parts.set n part else parts)

/-- The cell loop of `GetNodeParts` (metis.hpp:323-334); `ptr` is what is left of `cell_ptr`
from `curr_range_pointer` on, `cellParts` what is left of `cell_parts`. -/
def cellLoop (idx : List Nat) : List Nat → List Nat → Nat → List Nat → Option (List Nat)
  | _, [], _, parts => some parts
  | head :: tail :: ptr, part :: cellParts, q, parts => do
    let (parts', q') ← nodeLoop idx part (tail - head) q parts
    cellLoop idx (tail :: ptr) cellParts q' parts'
  | _, _ :: _, _, _ => none

/-- `GetNodeParts` (metis.hpp:315-337) for a mesh `(ptr, idx)` with `nNodes` nodes and as
many cells as `cellParts` has entries. -/
def getNodeParts (ptr idx : List Nat) (nNodes : Nat) (cellParts : List Nat) (nParts : Nat) :
    Option (List Nat) :=
  cellLoop idx ptr cellParts 0 (List.replicate nNodes nParts)

/-- `part_to_nodes[p][i_zone] = { head, tail }`: write into a table of one pair per part. -/
def writeRange (table : List (Nat × Nat)) (p : Nat) (r : Nat × Nat) : Option (List (Nat × Nat)) :=
  if p < table.length then some (table.set p r) else none

/-- The slicing loop (shuffler.hpp:350-358; the same code at 367-375 for cells and 385-393
for faces): `rest` is the field from `curr` on. -/
def sliceLoop : List Nat → Nat → Nat → Nat → List (Nat × Nat) → Option (List (Nat × Nat))
  | [], curr, prev, prevPart, table => writeRange table prevPart (prev, curr)
  | part :: rest, curr, prev, prevPart, table =>
    if part ≠ prevPart then do
      let table' ← writeRange table prevPart (prev, curr)
      sliceLoop rest (curr + 1) curr part table'
    else sliceLoop rest (curr + 1) prev prevPart table

/-- The slices of one zone (nodes, `first = 1`) or of one section (`first` its smallest id):
one pair `{head, tail}` per part, `{0, 0}` for parts not met (shuffler.hpp:323-337, 348-394).
An empty field is read out of range. -/
def slice (nParts first : Nat) (field : List Nat) : Option (List (Nat × Nat)) :=
  match field with
  | [] => none
  | part :: rest => sliceLoop rest (first + 1) first part (List.replicate nParts (0, 0))

end MiniCFD.Partition
