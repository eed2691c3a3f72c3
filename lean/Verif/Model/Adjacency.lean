import Mathlib.Data.Nat.Basic

/-
Model of the adjacency part of `Shuffler::WritePartitionInfo`
(/repo/include/mini/mesh/shuffler.hpp:396-434) and of the lists each rank derives from it
(/repo/include/mini/mesh/part.hpp: BuildAdj, FillCellPtrs).

Simplified: the CSR arrays of the mesh and of the dual graph are given row by row
(`cellNodes[i]` = nodes of cell `i`, `adj[i]` = neighbours of cell `i`); writing the text
files and reading them back is left out (the numbers are written with `<<` and read with
`sscanf` in the same order).
-/
namespace MiniCFD.Adjacency

/-- `std::set<int>::emplace`: a set is kept as an increasing list. -/
def setInsert (x : Nat) : List Nat → List Nat
  | [] => [x]
  | y :: ys => if x < y then x :: y :: ys else if x = y then y :: ys else y :: setInsert x ys

/-- The mesh, its dual graph and the partition. -/
structure Input where
  nParts : Nat
  cellNodes : List (List Nat)
  adj : List (List Nat)
  cellParts : List Nat
  nodeParts : List Nat

/-- The four containers (shuffler.hpp:398-403): vectors of `n_parts_` maps. A missing map key
is an empty set or vector. -/
structure Out where
  adjNodes : Nat → Nat → List Nat := fun _ _ => []
  sendNodes : Nat → Nat → List Nat := fun _ _ => []
  inner : Nat → List (Nat × Nat) := fun _ => []
  inter : Nat → Nat → List (Nat × Nat) := fun _ _ => []

/-- `table[p][q] = v`. -/
def upd {α : Type} (t : Nat → Nat → α) (p q : Nat) (v : α) : Nat → Nat → α :=
  fun p' q' => if p' = p ∧ q' = q then v else t p' q'

/-- The body of the node loops (shuffler.hpp:408-413 and 424-429). `none` when `node_part` is
not a part: `sendp_recvp_nodes[node_part]` is then out of range (`part_i` is checked in
`cellStep`). -/
def noteNode (inp : Input) (partI : Nat) (n : Nat) (o : Out) : Option Out := do
  let nodePart ← inp.nodeParts[n]?
  if nodePart ≠ partI then
    if nodePart < inp.nParts then
      return { o with
        adjNodes := upd o.adjNodes partI nodePart (setInsert n (o.adjNodes partI nodePart)),
        sendNodes := upd o.sendNodes nodePart partI (setInsert n (o.sendNodes nodePart partI)) }
    else none
  else return o

/-- A node loop. -/
def noteNodes (inp : Input) (partI : Nat) : List Nat → Out → Option Out
  | [], o => some o
  | n :: ns, o => do
    let o' ← noteNode inp partI n o
    noteNodes inp partI ns o'

/-- The body of the neighbour loop (shuffler.hpp:415-432). -/
def neighbourStep (inp : Input) (i partI j : Nat) (o : Out) : Option Out := do
  let partJ ← inp.cellParts[j]?
  if partI = partJ then
    if i < j then
      return { o with inner := fun p => if p = partI then o.inner partI ++ [(i, j)] else o.inner p }
    else return o
  else
    let nodes ← inp.cellNodes[j]?
    noteNodes inp partI nodes
      { o with inter := upd o.inter partI partJ (o.inter partI partJ ++ [(i, j)]) }

/-- The neighbour loop. -/
def neighbours (inp : Input) (i partI : Nat) : List Nat → Out → Option Out
  | [], o => some o
  | j :: js, o => do
    let o' ← neighbourStep inp i partI j o
    neighbours inp i partI js o'

/-- The body of the cell loop (shuffler.hpp:404-434). -/
def cellStep (inp : Input) (i : Nat) (o : Out) : Option Out := do
  let partI ← inp.cellParts[i]?
  if partI < inp.nParts then
    let nodes ← inp.cellNodes[i]?
    let o1 ← noteNodes inp partI nodes o
    let js ← inp.adj[i]?
    neighbours inp i partI js o1
  else none

/-- The cell loop from `i` on, `k` cells left. -/
def cells (inp : Input) : Nat → Nat → Out → Option Out
  | 0, _, o => some o
  | k + 1, i, o => do
    let o' ← cellStep inp i o
    cells inp k (i + 1) o'

/-- shuffler.hpp:396-434. -/
def run (inp : Input) : Option Out := cells inp inp.cellNodes.length 0 {}

/-- The keys of a `std::map` filled from a list, in the order in which the map is walked. -/
def keys (l : List Nat) : List Nat := l.foldl (fun s x => setInsert x s) []

/-- Rank `p`, cells sent to `q`: keys of `send_npes[q]` (part.hpp:877-885), the order of
`send_cell_ptrs_[q]` (part.hpp:966-977). -/
def sendCells (o : Out) (p q : Nat) : List Nat := keys ((o.inter p q).map Prod.fst)

/-- Rank `p`, ghost cells received from `q`: keys of `recv_npes[q]` (part.hpp:877-885), the
order of `recv_cell_ptrs_[q]` (part.hpp:979-987). -/
def recvCells (o : Out) (p q : Nat) : List Nat := keys ((o.inter p q).map Prod.snd)

end MiniCFD.Adjacency
