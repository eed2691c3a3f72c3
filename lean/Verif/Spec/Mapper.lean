import Verif.Model.Mapper

/-
What the CGNS <-> METIS maps must satisfy.
-/
namespace MiniCFD.Spec.Mapper
open MiniCFD.Mapper

/-- `(z, i)` names a node of the mesh (ids from 1). -/
def IsNode (zones : List Zone) (z i : Nat) : Prop :=
  ∃ zn, 1 ≤ z ∧ zones[z - 1]? = some zn ∧ 1 ≤ i ∧ i ≤ zn.nNodes

/-- `(z, s, i)` names a cell of the mesh: a valid id in a section of cells. -/
def IsCell (zones : List Zone) (z s i : Nat) : Prop :=
  ∃ zn sc, 1 ≤ z ∧ zones[z - 1]? = some zn ∧ 1 ≤ s ∧ zn.sects[s - 1]? = some sc ∧
    sc.isCell = true ∧ sc.rangeMin ≤ i ∧ i < sc.rangeMin + sc.nCells

/-- The METIS number of node `(z, i)` as a user looks it up. -/
def nodeNumber (mp : Maps) (z i : Nat) : Option Nat :=
  (atId mp.c2mNodes z).bind (fun nodes => atId nodes i)

/-- The METIS number of cell `(z, s, i)` as a user looks it up. -/
def cellNumber (mp : Maps) (z s i : Nat) : Option Nat :=
  (atId mp.c2mCells z).bind (fun sects => (atId sects s).bind (fun v => v.at i))

/-- The two node maps are mutually inverse bijections between mesh nodes and
`0..N-1`. -/
structure NodesInverse (zones : List Zone) (mp : Maps) : Prop where
  /-- as many numbers as nodes -/
  size : mp.m2cNodes.length = (zones.map (·.nNodes)).sum
  /-- CGNS -> METIS -> CGNS -/
  there : ∀ z i, IsNode zones z i →
    ∃ m : Nat, nodeNumber mp z i = some m ∧ mp.m2cNodes[m]? = some (z, i)
  /-- METIS -> CGNS -> METIS -/
  back : ∀ (m : Nat) z i, mp.m2cNodes[m]? = some (z, i) →
    IsNode zones z i ∧ nodeNumber mp z i = some m

/-- The two cell maps are mutually inverse bijections between mesh cells and
`0..C-1`. -/
structure CellsInverse (zones : List Zone) (mp : Maps) : Prop where
  size : mp.m2cCells.length =
    (zones.map (fun zn => ((zn.sects.filter (·.isCell)).map (·.nCells)).sum)).sum
  there : ∀ z s i, IsCell zones z s i →
    ∃ m : Nat, cellNumber mp z s i = some m ∧ mp.m2cCells[m]? = some ((z, s), i)
  back : ∀ (m : Nat) z s i, mp.m2cCells[m]? = some ((z, s), i) →
    IsCell zones z s i ∧ cellNumber mp z s i = some m

/-- Node ids in cell connectivity are in range and the array is long enough, as in a
valid CGNS file. -/
def ValidMesh (zones : List Zone) : Prop :=
  ∀ zn ∈ zones, ∀ s ∈ zn.sects, s.isCell = true →
    s.npe * s.nCells ≤ s.conn.length ∧ ∀ nid ∈ s.conn, 1 ≤ nid ∧ nid ≤ zn.nNodes

/-- Every zone has nodes and every section of cells has cells. -/
def NonEmpty (zones : List Zone) : Prop :=
  ∀ zn ∈ zones, 0 < zn.nNodes ∧ ∀ s ∈ zn.sects, s.isCell = true → 0 < s.nCells

/-- The flat METIS mesh `(ptr, idx)` describes the CGNS cells: cell number `m`, which is
cell `(z, s, i)`, has `npe` entries starting at `ptr[m]`, and its `k`-th entry is the METIS
number of the `k`-th node of that cell. -/
def SameCells (zones : List Zone) (st : St) : Prop :=
  st.cellPtr.length = st.maps.m2cCells.length + 1 ∧
  ∀ (m z s i : Nat) zn sc, st.maps.m2cCells[m]? = some ((z, s), i) → zones[z - 1]? = some zn →
    zn.sects[s - 1]? = some sc →
    ∃ p, st.cellPtr[m]? = some p ∧ st.cellPtr[m + 1]? = some (p + sc.npe) ∧
      ∀ k < sc.npe, ∃ nid, sc.conn[sc.npe * (i - sc.rangeMin) + k]? = some nid ∧
        st.cellIdx[p + k]? = nodeNumber st.maps z nid ∧ (nodeNumber st.maps z nid).isSome

/-- Inside each zone the nodes are ordered by part, ties by METIS number. -/
def NodesSorted (parts : List Nat) (zones : List Zone) (mp : Maps) : Prop :=
  ∀ (z i i' m m' p p' : Nat), IsNode zones z i → IsNode zones z i' → i < i' →
    nodeNumber mp z i = some m → nodeNumber mp z i' = some m' →
    parts[m]? = some p → parts[m']? = some p' → p < p' ∨ (p = p' ∧ m < m')

/-- Inside each section the cells are ordered by part, ties by METIS number. -/
def CellsSorted (parts : List Nat) (zones : List Zone) (mp : Maps) : Prop :=
  ∀ (z s i i' m m' p p' : Nat), IsCell zones z s i → IsCell zones z s i' → i < i' →
    cellNumber mp z s i = some m → cellNumber mp z s i' = some m' →
    parts[m]? = some p → parts[m']? = some p' → p < p' ∨ (p = p' ∧ m < m')

end MiniCFD.Spec.Mapper
