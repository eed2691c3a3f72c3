import Verif.Model.FaceParts

/-! Spec for C77: a face belongs with the one cell that has all of its nodes. -/

namespace MiniCFD.Spec.FaceParts

open MiniCFD.FaceParts

/-- The numbers of METIS for nodes of a zone that has all of them. -/
def renamed (z : Zone) (l : List Nat) : List Nat := l.map fun i => (z.nodeMap i).getD 0

/-- All cells: number and nodes. -/
def cells (g : Grid) : List (Nat × List Nat) :=
  g.zones.flatMap fun z => z.sects.flatMap fun s =>
    if s.dim = g.dim then s.elems.map fun e => (e.1, renamed z e.2) else []

/-- A grid with `n` nodes and `m` cells. -/
structure Good (g : Grid) (n m : Nat) : Prop where
  nodes : ∀ z ∈ g.zones, ∀ s ∈ z.sects, s.dim = g.dim ∨ s.dim + 1 = g.dim → ∀ e ∈ s.elems, ∀ i ∈ e.2,
    ∃ k, z.nodeMap i = some k ∧ k < n
  ids : ((cells g).map (·.1)).Nodup
  range : ∀ c ∈ cells g, c.1 < m
  distinct : ∀ c ∈ cells g, c.2.Nodup

/-- Cell `c` has all nodes of a face. -/
def Has (g : Grid) (face : List Nat) (c : Nat) : Prop := ∃ nodes, (c, nodes) ∈ cells g ∧ ∀ x ∈ face, x ∈ nodes

end MiniCFD.Spec.FaceParts
