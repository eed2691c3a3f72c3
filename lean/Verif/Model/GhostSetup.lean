import Verif.Model.Adjacency

/-
Model of the start-up exchange in /repo/include/mini/mesh/part.hpp: every rank learns the
coordinates of the nodes it does not own (ShareGhostNodes, BuildGhostNodes) and the
connectivity of its ghost cells (ShareGhostCells, BuildGhostCells).

Simplified: nodes and cells are named by their METIS index everywhere; the translation to
`(i_zone, i_node)` and back is the bijection verified in `Verif.Props.Mapper`. A message sent by
`q` to `p` arrives whole, as `MPI_Waitall` has returned on both sides; a receive buffer whose
length differs from the message is an error (`none`).
-/
namespace MiniCFD.GhostSetup
open MiniCFD.Adjacency

section nodes
variable {α : Type}

/-- What `GetCoord` finds on rank `p` in `local_nodes_` (part.hpp:1535-1542): only nodes of
the slice of `p`. -/
def localCoord (inp : Input) (coords : List (α × α × α)) (p n : Nat) : Option (α × α × α) :=
  if inp.nodeParts[n]? = some p then coords[n]? else none

/-- The buffer rank `q` sends to rank `p` (part.hpp:608-618). `none` when `m_to_node_index_.at`
throws. -/
def sendNodeBuf (inp : Input) (coords : List (α × α × α)) (o : Out) (q p : Nat) :
    Option (List α) := do
  let cs ← (o.sendNodes q p).mapM (localCoord inp coords q)
  return cs.flatMap (fun c => [c.1, c.2.1, c.2.2])

/-- BuildGhostNodes for one source (part.hpp:654-661): read three scalars per node. -/
def fillNodes : List Nat → List α → (Nat → Option (α × α × α)) →
    Option (Nat → Option (α × α × α))
  | [], [], m => some m
  | n :: ns, x :: y :: z :: rest, m => fillNodes ns rest (fun k => if k = n then some (x, y, z) else m k)
  | _, _, _ => none

/-- BuildGhostNodes: one source after the other (part.hpp:650-663). -/
def fillAllNodes (inp : Input) (coords : List (α × α × α)) (o : Out) (p : Nat) :
    List Nat → (Nat → Option (α × α × α)) → Option (Nat → Option (α × α × α))
  | [], m => some m
  | q :: qs, m => do
    let buf ← sendNodeBuf inp coords o q p
    let m' ← fillNodes (o.adjNodes p q) buf m
    fillAllNodes inp coords o p qs m'

def ghostNodes (inp : Input) (coords : List (α × α × α)) (o : Out) (p : Nat) :
    Option (Nat → Option (α × α × α)) :=
  fillAllNodes inp coords o p (List.range inp.nParts) (fun _ => none)

/-- `GetCoord` on rank `p` (part.hpp:1535-1547): own nodes first, then ghost nodes; `none` is
the exception of `ghost_nodes_.at`. -/
def getCoord (inp : Input) (coords : List (α × α × α)) (ghost : Nat → Option (α × α × α))
    (p n : Nat) : Option (α × α × α) :=
  match localCoord inp coords p n with
  | some c => some c
  | none => ghost n

end nodes

/-- The connectivity of cell `c` as stored on rank `q`: `m_to_cell_index_` and
`connectivities_` (part.hpp:790-805), only cells of the slice of `q`. -/
def localCell (inp : Input) (zones : List Nat) (q c : Nat) : Option (Nat × List Nat) :=
  if inp.cellParts[c]? = some q then do
    let z ← zones[c]?
    let ns ← inp.cellNodes[c]?
    return (z, ns)
  else none

/-- The buffer rank `q` sends to `p` (part.hpp:894-907). -/
def sendCellBuf (inp : Input) (zones : List Nat) (o : Out) (q p : Nat) : Option (List Nat) := do
  let cs ← (sendCells o q p).mapM (localCell inp zones q)
  return cs.flatMap (fun c => c.1 :: c.2)

/-- BuildGhostCells for one source (part.hpp:946-958): zone, then `npe` nodes per cell; `npe`
comes from the partition file (shuffler.hpp:480-484). -/
def fillCells (npe : Nat → Option Nat) : List Nat → List Nat → (Nat → Option (Nat × List Nat)) →
    Option (Nat → Option (Nat × List Nat))
  | [], [], m => some m
  | c :: cs, z :: rest, m => do
    let k ← npe c
    if k ≤ rest.length then
      fillCells npe cs (rest.drop k) (fun d => if d = c then some (z, rest.take k) else m d)
    else none
  | _, _, _ => none

def fillAllCells (inp : Input) (zones : List Nat) (o : Out) (p : Nat) :
    List Nat → (Nat → Option (Nat × List Nat)) → Option (Nat → Option (Nat × List Nat))
  | [], m => some m
  | q :: qs, m => do
    let buf ← sendCellBuf inp zones o q p
    let m' ← fillCells (fun c => (inp.cellNodes[c]?).map List.length) (recvCells o p q) buf m
    fillAllCells inp zones o p qs m'

/-- `ghost_cells_` of rank `p` (part.hpp:938-963). -/
def ghostCells (inp : Input) (zones : List Nat) (o : Out) (p : Nat) :
    Option (Nat → Option (Nat × List Nat)) :=
  fillAllCells inp zones o p (List.range inp.nParts) (fun _ => none)

end MiniCFD.GhostSetup
