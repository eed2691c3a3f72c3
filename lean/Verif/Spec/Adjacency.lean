import Verif.Model.Adjacency

/-
What the adjacency data must satisfy.
-/
namespace MiniCFD.Spec.Adjacency
open MiniCFD.Adjacency (Input)

/-- Cell `i` is a cell of part `p`. -/
def InPart (inp : Input) (i p : Nat) : Prop := inp.cellParts[i]? = some p

/-- Cells `i` and `j` share a face. -/
def Adjacent (inp : Input) (i j : Nat) : Prop := ∃ js, inp.adj[i]? = some js ∧ j ∈ js

def HasNode (inp : Input) (i n : Nat) : Prop := ∃ ns, inp.cellNodes[i]? = some ns ∧ n ∈ ns

/-- Rank `p` needs cell `c`: it owns it, or it owns a neighbour of it. -/
def NeedsCell (inp : Input) (p c : Nat) : Prop :=
  InPart inp c p ∨ ∃ i, InPart inp i p ∧ Adjacent inp i c

/-- Rank `p` needs the coordinates of node `n`. -/
def NeedsNode (inp : Input) (p n : Nat) : Prop := ∃ c, NeedsCell inp p c ∧ HasNode inp c n

/-- The cells of `p` that border on `q`. -/
def Border (inp : Input) (p q c : Nat) : Prop :=
  InPart inp c p ∧ p ≠ q ∧ ∃ j, InPart inp j q ∧ Adjacent inp c j

/-- A mesh, dual graph and partition with consistent sizes; every cell is in a part, every
node of a cell is owned by a part. -/
structure Valid (inp : Input) : Prop where
  lenAdj : inp.adj.length = inp.cellNodes.length
  lenParts : inp.cellParts.length = inp.cellNodes.length
  parts : ∀ p ∈ inp.cellParts, p < inp.nParts
  nbr : ∀ js ∈ inp.adj, ∀ j ∈ js, j < inp.cellNodes.length
  owner : ∀ ns ∈ inp.cellNodes, ∀ n ∈ ns, ∃ q, inp.nodeParts[n]? = some q ∧ q < inp.nParts

/-- The dual graph is undirected (METIS dual graphs are). -/
def Symmetric (inp : Input) : Prop := ∀ i j, Adjacent inp i j → Adjacent inp j i

/-- `l` is the set `S` in increasing order. -/
def IsSortedSet (l : List Nat) (S : Nat → Prop) : Prop :=
  l.Pairwise (· < ·) ∧ ∀ n, n ∈ l ↔ S n

end MiniCFD.Spec.Adjacency
