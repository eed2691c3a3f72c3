import Mathlib.Algebra.Group.Defs

/-
Model of the numbering of cells and of the solution column:
`Part::AddLocalCellId`, `GetCellDataOffset`, `GetCellDataSize`
(/repo/include/mini/mesh/part.hpp:818-858), the cell ranges `GetLocalCells` (storage order) and
`GetLocalCellPointers` (inner cells, then inter cells; part.hpp:1342-1356),
`FiniteElement::SetSolutionColumn`, `GetSolutionColumn`, `AddCellDataOffset`
(/repo/include/mini/spatial/fem.hpp:111-172), `GetCoeffFrom`, `WriteCoeffTo`, `AddCoeffTo`,
`MinusCoeff`, `AddValueTo`, `MinusValue` (/repo/include/mini/polynomial/projection.hpp:163-184,
/repo/include/mini/polynomial/hexahedron.hpp:514-566).

A cell is known by its position in storage order. Its coefficients are the list of the scalars of
`coeff_` in memory order, whose length is `CountFields()`; lengths may differ from cell to cell.
-/
namespace MiniCFD.Column

/-- Positions (from `i` on) whose flag is `b` (part.hpp:819-825). -/
def positions (b : Bool) : List Bool → Nat → List Nat
  | [], _ => []
  | c :: cs, i => if c = b then i :: positions b cs (i + 1) else positions b cs (i + 1)

/-- `GetLocalCellPointers` (part.hpp:1354-1356): inner cells, then inter cells. -/
def pointers (inter : List Bool) : List Nat :=
  positions false inter 0 ++ positions true inter 0

/-- The numbering loop of `AddLocalCellId` (part.hpp:826-831): `ids` are the `id_`s by position,
`offs` is `cell_data_`. -/
def numberLoop (sizes : List Nat) : List Nat → Nat → List Nat → List Nat →
    Option (List Nat × List Nat)
  | [], _, ids, offs => some (ids, offs)
  | p :: ps, id, ids, offs => do
    let s ← sizes[p]?
    let back ← offs.getLast?
    if p < ids.length then numberLoop sizes ps (id + 1) (ids.set p id) (offs ++ [back + s])
    else none

/-- `AddLocalCellId` (part.hpp:818-835). Ids are 0 before. -/
def addLocalCellId (inter : List Bool) (sizes : List Nat) : Option (List Nat × List Nat) :=
  numberLoop sizes (pointers inter) 0 (List.replicate sizes.length 0) [0]

/-- The numbering kept by a `Part`. -/
structure Numbering where
  inter : List Bool
  ids : List Nat
  offs : List Nat

/-- `GetCellDataOffset(cell.id())` (part.hpp:844-847, fem.hpp:111-123). -/
def Numbering.offset (n : Numbering) (p : Nat) : Option Nat := do
  let i ← n.ids[p]?
  n.offs[i]?

/-- `GetCellDataSize` (part.hpp:853-857), where `CountLocalCells` is `cell_data_.size() - 1`. -/
def Numbering.size (n : Numbering) : Option Nat := n.offs[n.offs.length - 1]?

variable {R : Type}

/-- Read `len` scalars at `off` (`GetCoeffFrom`'s memcpy); `none` beyond the column. -/
def readAt (col : List R) (off len : Nat) : Option (List R) :=
  if off + len ≤ col.length then some ((col.drop off).take len) else none

/-- Write the scalars at `off` (`WriteCoeffTo`'s memcpy); `none` beyond the column. -/
def writeAt (col : List R) (off : Nat) (data : List R) : Option (List R) :=
  if off + data.length ≤ col.length then
    some (col.take off ++ data ++ col.drop (off + data.length))
  else none

/-- `SetSolutionColumn` (fem.hpp:153-161): the loop over cell pointers. -/
def setLoop (n : Numbering) (col : List R) : List Nat → List (List R) → Option (List (List R))
  | [], cells => some cells
  | p :: ps, cells => do
    let off ← n.offset p
    let old ← cells[p]?
    let new ← readAt col off old.length
    setLoop n col ps (cells.set p new)

def setColumn (n : Numbering) (col : List R) (cells : List (List R)) : Option (List (List R)) :=
  setLoop n col (pointers n.inter) cells

/-- `GetSolutionColumn` (fem.hpp:162-172): the loop over cells, from position `p` on. -/
def getLoop (n : Numbering) : List (List R) → Nat → List R → Option (List R)
  | [], _, col => some col
  | c :: cs, p, col => do
    let off ← n.offset p
    let col' ← writeAt col off c
    getLoop n cs (p + 1) col'

/-- `raw` is the uninitialised column of `cell_data_size_` scalars. -/
def getColumn (n : Numbering) (raw : List R) (cells : List (List R)) : Option (List R) :=
  getLoop n cells 0 raw

/-- `*output++ += x` over a list of scalars. -/
def addAt [Add R] (col : List R) (off : Nat) (data : List R) : Option (List R) := do
  let old ← readAt col off data.length
  writeAt col off (List.zipWith (· + ·) old data)

/-- One contribution to a residual: `data` is added to the block of the cell at position `cell`,
`shift` scalars after its beginning. `AddCoeffTo` has `shift = 0`; `AddValueTo(value, …, i_basis)`
has `shift = K * i_basis`; `MinusCoeff` and `MinusValue` add the negated scalars. -/
structure Contribution (R : Type) where
  cell : Nat
  shift : Nat
  data : List R

/-- Apply contributions one after another. -/
def accumulate [Add R] (n : Numbering) : List (Contribution R) → List R → Option (List R)
  | [], col => some col
  | c :: cs, col => do
    let off ← n.offset c.cell
    let col' ← addAt col (off + c.shift) c.data
    accumulate n cs col'

end MiniCFD.Column
