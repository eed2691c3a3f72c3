import Verif.Model.Shuffle

/-
Model of the CGNS <-> METIS index maps: /repo/include/mini/mesh/mapper.hpp and the
parts of `Shuffler::Shuffle` (/repo/include/mini/mesh/shuffler.hpp) that update them.

Simplified: CGNS ids start at 1 and the C++ vectors carry an unused slot 0 (`-1` in
`nodes`, empty vectors for zone and section 0); here the slot is left out and
id `i` is at position `i - 1`; id 0 reads as `none`.
-/
namespace MiniCFD.Mapper
open MiniCFD.Shuffle (getNewOrder shuffleData)

/-- Read by 1-based id. -/
def atId {α : Type} (v : List α) (i : Nat) : Option α := if i = 0 then none else v[i - 1]?

/-- `ShiftedVector<Int>` (cgns.hpp:155-185): data plus the id of its first item. -/
structure Shifted where
  shift : Nat
  data : List Nat
  deriving DecidableEq

/-- `ShiftedVector::at` (cgns.hpp:175-184): `i - shift` below zero wraps to a huge
unsigned number, for which `std::vector::at` throws: `none`. -/
def Shifted.at (v : Shifted) (i : Nat) : Option Nat :=
  if i < v.shift then none else v.data[i - v.shift]?

/-- What `Map` reads of a section: is it a section of cells
(`zone.CheckTypeDim(section.type(), cell_dim)`), first id, number of elements, nodes
per element, flat 1-based connectivity. -/
structure Sect where
  isCell : Bool
  rangeMin : Nat
  nCells : Nat
  npe : Nat
  conn : List Nat

/-- What `Map` reads of a zone. -/
structure Zone where
  nNodes : Nat
  sects : List Sect

/-- The members of `CgnsToMetis` (mapper.hpp:52-59). -/
structure Maps where
  m2cNodes : List (Nat × Nat) := []
  m2cCells : List ((Nat × Nat) × Nat) := []
  c2mNodes : List (List Nat) := []
  c2mCells : List (List Shifted) := []

/-- The local variables of `Map` (mapper.hpp:69-74) and the maps under construction. -/
structure St where
  maps : Maps := {}
  nNodesInBase : Nat := 0
  nNodesInPrevZones : Nat := 0
  cellPtr : List Nat := [0]
  cellIdx : List Nat := []
  pointer : Nat := 0

/-- The loop over the nodes of a zone (mapper.hpp:86-89): `i_node` from `i` on, `k` steps.
Returns the growing `metis_to_cgns_for_nodes`, `nodes` and `n_nodes_in_curr_base`. -/
def nodeLoop (iZone : Nat) : Nat → Nat → List (Nat × Nat) → List Nat → Nat →
    List (Nat × Nat) × List Nat × Nat
  | 0, _, m2c, nodes, base => (m2c, nodes, base)
  | k + 1, i, m2c, nodes, base =>
    nodeLoop iZone k (i + 1) (m2c ++ [(iZone, i)]) (nodes ++ [base]) (base + 1)

/-- The loop over the cells of a section (mapper.hpp:104-109): `i_cell` from `i` on,
`k` steps. Returns `metis_to_cgns_for_cells`, the data of `metis_i_cells`, `cell_ptr` and
`pointer_value`. Simplified: `metis_i_cells.at(i_cell) = ...` for consecutive `i_cell` is an
append. -/
def cellLoop (iZone iSect npe : Nat) : Nat → Nat → List ((Nat × Nat) × Nat) → List Nat →
    List Nat → Nat → List ((Nat × Nat) × Nat) × List Nat × List Nat × Nat
  | 0, _, m2c, v, ptr, p => (m2c, v, ptr, p)
  | k + 1, i, m2c, v, ptr, p =>
    cellLoop iZone iSect npe k (i + 1) (m2c ++ [((iZone, iSect), i)]) (v ++ [m2c.length])
      (ptr ++ [p + npe]) (p + npe)

/-- The body of the section loop (mapper.hpp:93-117); `sv` collects
`cgns_to_metis_for_cells[i_zone]`. `none`: the connectivity array is too short, or holds
the id 0 (negative METIS index). -/
def sectStep (iZone iSect : Nat) (s : Sect) (st : St) (sv : List Shifted) :
    Option (St × List Shifted) :=
  if s.isCell then do
    let (m2c, v, ptr, p) := cellLoop iZone iSect s.npe s.nCells s.rangeMin st.maps.m2cCells []
      st.cellPtr st.pointer
    if s.npe * s.nCells ≤ s.conn.length then
      let idx ← (s.conn.take (s.npe * s.nCells)).mapM
        (fun nid => if nid = 0 then none else some (st.nNodesInPrevZones + nid - 1))
      return ({ st with maps := { st.maps with m2cCells := m2c }, cellPtr := ptr, pointer := p,
                        cellIdx := st.cellIdx ++ idx }, sv ++ [⟨s.rangeMin, v⟩])
    else none
  else some (st, sv ++ [⟨0, []⟩])

/-- The section loop, `i_sect` counting up. -/
def sectLoop (iZone : Nat) : Nat → List Sect → St → List Shifted → Option (St × List Shifted)
  | _, [], st, sv => some (st, sv)
  | iSect, s :: ss, st, sv => do
    let (st', sv') ← sectStep iZone iSect s st sv
    sectLoop iZone (iSect + 1) ss st' sv'

/-- The body of the zone loop (mapper.hpp:77-119). -/
def zoneStep (iZone : Nat) (zn : Zone) (st : St) : Option St := do
  let (m2c, nodes, base) := nodeLoop iZone zn.nNodes 1 st.maps.m2cNodes [] st.nNodesInBase
  let st1 := { st with maps := { st.maps with m2cNodes := m2c }, nNodesInBase := base }
  let (st2, sv) ← sectLoop iZone 1 zn.sects st1 []
  return { st2 with
    maps := { st2.maps with c2mNodes := st2.maps.c2mNodes ++ [nodes],
                            c2mCells := st2.maps.c2mCells ++ [sv] },
    nNodesInPrevZones := st2.nNodesInPrevZones + zn.nNodes }

/-- The zone loop, `i_zone` counting up. -/
def zoneLoop : Nat → List Zone → St → Option St
  | _, [], st => some st
  | iZone, zn :: zns, st => do
    let st' ← zoneStep iZone zn st
    zoneLoop (iZone + 1) zns st'

/-- `CgnsToMetis::Map` (mapper.hpp:62-123). -/
def map (zones : List Zone) : Option St := zoneLoop 1 zones {}

/-- First loop of `CgnsToMetis::IsValid` (mapper.hpp:127-134). `none` is an exception. -/
def validNodes (mp : Maps) : List (Nat × Nat) → Nat → Option Bool
  | [], _ => some true
  | (z, i) :: rest, m => do
    let nodes ← atId mp.c2mNodes z
    let m' ← atId nodes i
    if m' ≠ m then return false else validNodes mp rest (m + 1)

/-- Second loop of `IsValid` (mapper.hpp:135-142). -/
def validCells (mp : Maps) : List ((Nat × Nat) × Nat) → Nat → Option Bool
  | [], _ => some true
  | ((z, s), i) :: rest, m => do
    let sects ← atId mp.c2mCells z
    let cells ← atId sects s
    let m' ← cells.at i
    if m' ≠ m then return false else validCells mp rest (m + 1)

/-- `CgnsToMetis::IsValid` (mapper.hpp:125-144). -/
def isValid (mp : Maps) : Option Bool := do
  let b ← validNodes mp mp.m2cNodes 0
  if b then validCells mp mp.m2cCells 0 else return false

/-- The part of the section loop of `Shuffler::Shuffle` that updates the cell maps
(shuffler.hpp:276-298): `cell_parts_` read from the METIS index of the section's first
cell. -/
def shuffleSectMaps (cellParts : List Nat) (iZone iSect : Nat) (s : Sect) (mp : Maps) :
    Option Maps :=
  if s.isCell then do
    let sv ← atId mp.c2mCells iZone
    let v ← atId sv iSect
    let off ← v.at s.rangeMin
    if off + s.nCells ≤ cellParts.length then
      let (n2o, o2n) ← getNewOrder ((cellParts.drop off).take s.nCells)
      let m2c ← shuffleData o2n off mp.m2cCells
      let data ← shuffleData n2o 0 v.data
      return { mp with m2cCells := m2c,
                       c2mCells := mp.c2mCells.set (iZone - 1)
                         (sv.set (iSect - 1) ⟨v.shift, data⟩) }
    else none
  else some mp

def shuffleSectsMaps (cellParts : List Nat) (iZone : Nat) : Nat → List Sect → Maps → Option Maps
  | _, [], mp => some mp
  | iSect, s :: ss, mp => do
    let mp' ← shuffleSectMaps cellParts iZone iSect s mp
    shuffleSectsMaps cellParts iZone (iSect + 1) ss mp'

/-- The part of the zone loop of `Shuffler::Shuffle` that updates the maps
(shuffler.hpp:254-262). -/
def shuffleZoneMaps (nodeParts cellParts : List Nat) (iZone : Nat) (zn : Zone) (mp : Maps) :
    Option Maps := do
  let nodes ← atId mp.c2mNodes iZone
  let off ← nodes[0]?   -- `c_to_m_nodes[i_zone][1]`
  if off + zn.nNodes ≤ nodeParts.length then
    let (n2o, o2n) ← getNewOrder ((nodeParts.drop off).take zn.nNodes)
    let nodes' ← shuffleData n2o 0 nodes
    let m2c ← shuffleData o2n off mp.m2cNodes
    shuffleSectsMaps cellParts iZone 1 zn.sects
      { mp with m2cNodes := m2c, c2mNodes := mp.c2mNodes.set (iZone - 1) nodes' }
  else none

def shuffleMapsLoop (nodeParts cellParts : List Nat) : Nat → List Zone → Maps → Option Maps
  | _, [], mp => some mp
  | iZone, zn :: zns, mp => do
    let mp' ← shuffleZoneMaps nodeParts cellParts iZone zn mp
    shuffleMapsLoop nodeParts cellParts (iZone + 1) zns mp'

/-- All map updates of `Shuffler::Shuffle` (shuffler.hpp:241-314). -/
def shuffleMaps (nodeParts cellParts : List Nat) (zones : List Zone) (mp : Maps) : Option Maps :=
  shuffleMapsLoop nodeParts cellParts 1 zones mp

end MiniCFD.Mapper
