import Mathlib.Data.Nat.Basic

namespace MiniCFD.Spec.Overset

/-- `j` is listed as a neighbour of `i`. -/
def Edge (adj : List (List Nat)) (i j : Nat) : Prop := ∃ js, adj[i]? = some js ∧ j ∈ js

/-- A walk of `m` steps from a cell of `S`, each step to a cell admitted by `ok`. -/
inductive Walk (adj : List (List Nat)) (ok : Nat → Prop) (S : Nat → Prop) : Nat → Nat → Prop
  | start {c : Nat} : S c → Walk adj ok S 0 c
  | step {m i j : Nat} : Walk adj ok S m i → Edge adj i j → ok j → Walk adj ok S (m + 1) j

/-- A cell with fewer neighbours than faces. -/
def Outermost (adj : List (List Nat)) (nFaces : List Nat) (c : Nat) : Prop :=
  ∃ js f, adj[c]? = some js ∧ nFaces[c]? = some f ∧ js.length < f

/-- Every listed neighbour is a cell. -/
def Closed (adj : List (List Nat)) : Prop := ∀ js ∈ adj, ∀ j ∈ js, j < adj.length

end MiniCFD.Spec.Overset
