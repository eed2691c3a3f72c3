import Mathlib.Data.Nat.Basic

/-
Model of `Zone::SortSectionsByDim`, `MergeSections` and `SplitSections`
(/repo/include/mini/mesh/cgns.hpp:930-1045) and of the parts of `Section` they use
(cgns.hpp:315-399).

`ElementType` values are numbers; `mixed` is `CGNS_ENUMV(MIXED)`. The functions
`CountNodesByType` (cgns.hpp:39-61) and `dim` (cgns.hpp:87-104) are the fields of `Elem`; they are
parameters so that the theorems hold for every set of element types.
-/
namespace MiniCFD.Sections

structure Elem where
  mixed : Nat
  npe : Nat → Nat
  dim : Nat → Int

/-- `Section` (cgns.hpp:315-399): `first_`, `last_`, `connectivity_`, `start_offset_`. -/
structure Sect where
  id : Nat
  name : List Nat
  first : Nat
  last : Nat
  type : Nat
  dim : Int
  conn : List Nat
  offs : List Nat

/-- `CountCells` (cgns.hpp:357). `last_ = first_ - 1` for an empty section. -/
def Sect.count (s : Sect) : Nat := s.last + 1 - s.first

/-- `GetNodeIdList(i_cell)` (cgns.hpp:378-399) as the data from the returned pointer on;
`none` when `at` throws. -/
def Sect.row (E : Elem) (s : Sect) (iCell : Nat) : Option (List Nat) := do
  if iCell < s.first then none else
    let i := iCell - s.first
    let k ← if s.type = E.mixed then s.offs[i]? else some (E.npe s.type * i)
    if k < s.conn.length then some (s.conn.drop k) else none

/-- Read `n` items through a pointer. -/
def readN (n : Nat) (ptr : List Nat) : Option (List Nat) :=
  if n ≤ ptr.length then some (ptr.take n) else none

/-! ### SortSectionsByDim -/

/-- The comparison of sections (cgns.hpp:1024-1028). -/
def before (a b : Sect) : Bool :=
  decide (b.dim < a.dim) || (decide (a.dim = b.dim) && decide (a.id < b.id))

/-- The renumbering loop (cgns.hpp:1034-1043). -/
def renumber : List Sect → Nat → Nat → List Sect
  | [], _, _ => []
  | s :: ss, iSect, next =>
    { s with id := iSect, first := next, last := next + s.count - 1 } ::
      renumber ss (iSect + 1) (next + s.count)

/-- A possible outcome of `std::sort` with `before`: a rearrangement in which no section comes
after one that it precedes. (Sections with equal dimension and id may come in any order.) -/
def SortOutcome (l l' : List Sect) : Prop :=
  l'.Perm l ∧ l'.Pairwise (fun a b => before b a = false)

/-- A possible outcome of `SortSectionsByDim` (cgns.hpp:1016-1045). -/
def SortSections (l out : List Sect) : Prop :=
  ∃ l', SortOutcome l l' ∧ out = renumber l' 1 1

/-! ### MergeSections -/

/-- The cell loop of MergeSections (cgns.hpp:942-952): `k` more cells of `s` from `iCell` on,
appended to the mixed section `m`. -/
def mergeCells (E : Elem) (s : Sect) : Nat → Nat → Sect → Option Sect
  | 0, _, m => some m
  | k + 1, iCell, m => do
    let ptr ← s.row E iCell
    let nodes ← readN (E.npe s.type) ptr
    let conn := m.conn ++ s.type :: nodes
    mergeCells E s k (iCell + 1)
      { m with conn := conn, offs := m.offs ++ [conn.length], last := m.last + 1 }

/-- The section loop of MergeSections (cgns.hpp:937-957): `m` is the mixed section, `kept` are
the sections left alone. -/
def mergeLoop (E : Elem) (sel : List Nat) : List Sect → Sect → List Sect →
    Option (Sect × List Sect)
  | [], m, kept => some (m, kept)
  | s :: ss, m, kept =>
    if sel = [] ∨ s.id ∈ sel then do
      let m' ← mergeCells E s s.count s.first { m with dim := max m.dim s.dim }
      mergeLoop E sel ss m' kept
    else mergeLoop E sel ss m (kept ++ [s])

/-- The new mixed section (cgns.hpp:933-936). -/
def emptyMixed (E : Elem) : Sect where
  id := 0
  name := []
  first := 1
  last := 0
  type := E.mixed
  dim := E.dim E.mixed
  conn := []
  offs := [0]

/-- `MergeSections` before the final `SortSectionsByDim` (cgns.hpp:930-960). -/
def merge (E : Elem) (sel : List Nat) (secs : List Sect) : Option (List Sect) := do
  let (m, kept) ← mergeLoop E sel secs (emptyMixed E) []
  return if m.count ≠ 0 then kept ++ [m] else kept

/-! ### SplitSections -/

/-- `type_to_sections` (cgns.hpp:971-972): the new sections in order of creation. Simplified: the
`std::unordered_map` is walked in an unspecified order at the end; all new sections get different
ids, so the final sort makes their order irrelevant. -/
abbrev Groups := List Sect

/-- Append one cell to the section of its type (cgns.hpp:981-994), creating it if needed;
`iSect` is the next id. -/
def addCell (E : Elem) (type : Nat) (nodes : List Nat) (iSect : Nat) : Groups → Groups × Nat
  | [] => ([{ id := iSect, name := [], first := 1, last := 1, type := type, dim := E.dim type,
              conn := nodes, offs := [] }], iSect + 1)
  | g :: gs =>
    if g.type = type then
      ({ g with conn := g.conn ++ nodes, last := g.last + 1 } :: gs, iSect)
    else
      let (gs', i') := addCell E type nodes iSect gs
      (g :: gs', i')

/-- The cell loop of SplitSections (cgns.hpp:977-995). -/
def splitCells (E : Elem) (s : Sect) : Nat → Nat → Groups → Nat → Option (Groups × Nat)
  | 0, _, gs, i => some (gs, i)
  | k + 1, iCell, gs, i => do
    let ptr ← s.row E iCell
    let type ← ptr[0]?
    let nodes ← readN (E.npe type) (ptr.drop 1)
    let (gs', i') := addCell E type nodes i gs
    splitCells E s k (iCell + 1) gs' i'

/-- The section loop of SplitSections (cgns.hpp:974-998). -/
def splitLoop (E : Elem) (sel : List Nat) : List Sect → Groups → Nat → List Sect →
    Option (Groups × List Sect)
  | [], gs, _, kept => some (gs, kept)
  | s :: ss, gs, i, kept =>
    if s.type = E.mixed ∧ (sel = [] ∨ s.id ∈ sel) then do
      let (gs', i') ← splitCells E s s.count s.first gs i
      splitLoop E sel ss gs' i' kept
    else splitLoop E sel ss gs i (kept ++ [s])

/-- `SplitSections` before the final `SortSectionsByDim` (cgns.hpp:968-1002). -/
def split (E : Elem) (sel : List Nat) (secs : List Sect) : Option (List Sect) := do
  let (gs, kept) ← splitLoop E sel secs [] secs.length []
  return kept ++ gs

end MiniCFD.Sections
