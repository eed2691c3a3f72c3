import Mathlib.Data.Nat.Basic
import Mathlib.Data.List.FinRange
import Mathlib.Tactic.Common

/-!
# Model of writing and reading solutions

Covers `GatherSolutions`, `ScatterSolutions`, `WriteSolutions` and `ReadSolutions` of `include/mini/mesh/part.hpp`
(lines 1100-1257) with `Section` (lines 290-389).

Of a file only the fields of `DataOnCells` are modelled; coordinates, connectivities and names are not.  The CGNS
library is modelled as an array per zone and field, in which writing a range sets the values in the range.  Whether
`cgp_field_write` keeps the values of a field that already exists is left open (`keep`): it is called once per section
with the same name.  Ranges without elements, for which CGNS gets a null pointer, do nothing.
-/

namespace MiniCFD.Checkpoint

/-- What is used of a `std::map` with integer keys. -/
structure Map (α : Type) where
  size : Nat
  find : Nat → Option α

variable {α V : Type}

/-- An empty map. -/
def Map.empty : Map α := ⟨0, fun _ => none⟩

/-- Assigning to the value of a key that is there. -/
def Map.put (m : Map α) (k : Nat) (a : α) : Map α := { m with find := fun k' => if k' = k then some a else m.find k' }

/-- `Section`, part.hpp:290-315: `cells` holds `cell.projection().coeff().reshaped()` of each cell, `fields` is
`fields_`, whose index is shifted by 1. -/
structure Sect (V : Type) where
  head : Nat
  size : Nat
  cells : List (List V)
  fields : List (List V)

/-- `rows.at(r).at(c) = v`. -/
def put (rows : List (List V)) (r c : Nat) (v : V) : Option (List (List V)) := do
  let row ← rows[r]?
  if c < row.length then some (rows.set r (row.set c v)) else none

/-- `rows.at(r).at(c)`. -/
def look (rows : List (List V)) (r c : Nat) : Option V := (rows[r]?).bind (·[c]?)

/-- The pairs visited by two nested loops. -/
def pairs (m k : Nat) : List (Nat × Nat) := (List.range m).flatMap fun i => (List.range k).map fun f => (i, f)

/-- `GatherFields`, part.hpp:370-378; `k` is `kFields`. -/
def Sect.gather (k : Nat) (s : Sect V) : Option (Sect V) := do
  let fields ← (pairs s.size k).foldlM (fun fields p => do
    let v ← look s.cells p.1 p.2
    put fields p.2 p.1 v) s.fields
  some { s with fields := fields }

/-- `ScatterFields`, part.hpp:379-387. -/
def Sect.scatter (k : Nat) (s : Sect V) : Option (Sect V) := do
  let cells ← (pairs s.size k).foldlM (fun cells p => do
    let v ← look s.fields p.2 p.1
    put cells p.1 p.2 v) s.cells
  some { s with cells := cells }

/-- What a rank knows: the number of zones (`local_nodes_.size()`) and `local_cells_`. -/
structure Rank (V : Type) where
  zones : Nat
  cells : Map (Map (Sect V))

/-- `1, ..., n`. -/
def upTo (n : Nat) : List Nat := (List.range n).map (· + 1)

/-- The loop over the sections of a zone, part.hpp:1104-1107 or 1113-1116, with `f` for what is done to a section.
`operator[]` for a missing section makes one with uninitialised members, on which `f` is undefined. -/
def eachSect (f : Sect V → Option (Sect V)) (zone : Map (Sect V)) : Option (Map (Sect V)) :=
  (upTo zone.size).foldlM (fun zone i => do
    let s ← zone.find i
    let s ← f s
    some (zone.put i s)) zone

/-- One round of a loop over zones. -/
def zoneStep (missing : Map (Map (Sect V)) → Nat → Option (Map (Map (Sect V))))
    (g : Nat → Map (Sect V) → Option (Map (Sect V))) (cells : Map (Map (Sect V))) (z : Nat) :
    Option (Map (Map (Sect V))) :=
  match cells.find z with
  | some zone => (g z zone).map (cells.put z)
  | none => missing cells z

/-- A loop over zones, with `g` for what is done to a zone and `missing` for zones that are not there. -/
def eachZone (missing : Map (Map (Sect V)) → Nat → Option (Map (Map (Sect V))))
    (g : Nat → Map (Sect V) → Option (Map (Sect V))) (r : Rank V) : Option (Rank V) := do
  let cells ← (upTo r.zones).foldlM (zoneStep missing g) r.cells
  some { r with cells := cells }

/-- `operator[]` makes an empty zone; `at` throws. -/
def insertZone (cells : Map (Map (Sect V))) (z : Nat) : Option (Map (Map (Sect V))) :=
  some { (cells.put z Map.empty) with size := cells.size + 1 }

/-- `GatherSolutions`, part.hpp:1100-1109. -/
def gatherSolutions (k : Nat) (r : Rank V) : Option (Rank V) := eachZone insertZone (fun _ => eachSect (Sect.gather k)) r

/-- `ScatterSolutions`, part.hpp:1110-1118. -/
def scatterSolutions (k : Nat) (r : Rank V) : Option (Rank V) := eachZone insertZone (fun _ => eachSect (Sect.scatter k)) r

/-- The fields in a file: zone, field, cell. -/
abbrev File (V : Type) := Nat → Nat → Nat → Option V

/-- `cgp_field_write`, part.hpp:1204-1207. -/
def create (keep : Bool) (z f : Nat) (file : File V) : File V :=
  if keep then file else fun z' f' c => if z' = z ∧ f' = f then none else file z' f' c

/-- `cgp_field_write_data` of the cells from `head` on, part.hpp:1209-1214, in a zone of `n` cells. -/
def writeData (n z f head size : Nat) (vals : List V) (file : File V) : Option (File V) :=
  if size = 0 then some file
  else if 1 ≤ head ∧ head + size ≤ n + 1 ∧ size ≤ vals.length then
    some fun z' f' c => if z' = z ∧ f' = f ∧ head ≤ c ∧ c < head + size then vals[c - head]? else file z' f' c
  else none

/-- The body of the loop over sections, part.hpp:1200-1214, executed by all ranks, whose data arrive in the given
order. -/
def writeSect (keep : Bool) (n : Nat) (ranks : List (Rank V)) (order : List Nat) (z f i : Nat) (file : File V) :
    Option (File V) :=
  order.foldlM (fun file p => do
    let r ← ranks[p]?
    let zone ← r.cells.find z
    let s ← zone.find i
    let vals ← s.fields[f - 1]?
    writeData n z f s.head s.size vals file) (create keep z f file)

/-- A number on which all ranks agree.  Calls of the parallel library are collective: without agreement they hang. -/
def agreed (g : Rank V → Option Nat) (ranks : List (Rank V)) : Option Nat :=
  match ranks with
  | [] => none
  | r :: rest => if ∀ r' ∈ rest, g r' = g r then g r else none

/-- The fields written by `WriteSolutions`, part.hpp:1160-1219, by all ranks into a new file; zone `z` has `n z`
cells. -/
def writeSolutions (keep : Bool) (k : Nat) (n : Nat → Nat) (ranks : List (Rank V)) (order : Nat → Nat → Nat → List Nat) :
    Option (File V) := do
  let zones ← agreed (fun r => some r.zones) ranks
  (upTo zones).foldlM (fun file z => do
    let sects ← agreed (fun r => (r.cells.find z).map Map.size) ranks
    (upTo k).foldlM (fun file f =>
      (upTo sects).foldlM (fun file i => writeSect keep (n z) ranks (order z f i) z f i file) file) file)
    (fun _ _ _ => none)

/-- `cgp_field_read_data`, part.hpp:1246-1251.  What has not been written cannot be read. -/
def readData (z f head size : Nat) (file : File V) : Option (List V) :=
  (List.range size).mapM fun j => file z f (head + j)

/-- The body of the loop over sections, part.hpp:1238-1251. -/
def readSect (z f : Nat) (file : File V) (s : Sect V) : Option (Sect V) := do
  let vals ← readData z f s.head s.size file
  if f - 1 < s.fields.length then some { s with fields := s.fields.set (f - 1) vals } else none

/-- `ReadSolutions`, part.hpp:1221-1257, by one rank; `zone.at` throws for missing sections, which fails as in
`eachSect`. -/
def readSolutions (k : Nat) (file : File V) (r : Rank V) : Option (Rank V) :=
  eachZone (fun _ _ => none) (fun z zone => (upTo k).foldlM (fun zone f => eachSect (readSect z f file) zone) zone) r

end MiniCFD.Checkpoint
