/-
What the partition data must satisfy.
-/
namespace MiniCFD.Spec.Partition

/-- Cell `i` of the flat mesh `(ptr, idx)` uses node `n`. -/
def Uses (ptr idx : List Nat) (i n : Nat) : Prop :=
  ∃ (a b q : Nat), ptr[i]? = some a ∧ ptr[i + 1]? = some b ∧ a ≤ q ∧ q < b ∧ idx[q]? = some n

/-- A flat mesh with `nCells` cells and `nNodes` nodes: starts at 0, does not decrease, and
every entry is a node. -/
structure ValidMesh (ptr idx : List Nat) (nCells nNodes : Nat) : Prop where
  len : ptr.length = nCells + 1
  first : ptr[0]? = some 0
  mono : ∀ (i a b : Nat), ptr[i]? = some a → ptr[i + 1]? = some b → a ≤ b
  last : ∀ (a : Nat), ptr[nCells]? = some a → a ≤ idx.length
  nodes : ∀ n ∈ idx, n < nNodes

/-- `p` is the smallest part among those of the cells that use node `n`. -/
def IsSmallestUser (ptr idx cellParts : List Nat) (n p : Nat) : Prop :=
  (∃ i : Nat, Uses ptr idx i n ∧ cellParts[i]? = some p) ∧
  ∀ i p' : Nat, Uses ptr idx i n → cellParts[i]? = some p' → p ≤ p'

/-- The range of part `p` holds exactly the ids `first, first + 1, ...` whose entry in
`field` is `p`. -/
def ExactRanges (first : Nat) (field : List Nat) (table : List (Nat × Nat)) : Prop :=
  ∀ (p head tail : Nat), table[p]? = some (head, tail) →
    head ≤ tail ∧ ∀ id, (head ≤ id ∧ id < tail) ↔ (first ≤ id ∧ field[id - first]? = some p)

/-- Every id is in exactly one range. -/
def CoverOnce (first n : Nat) (table : List (Nat × Nat)) : Prop :=
  ∀ id, first ≤ id → id < first + n →
    ∃ p : Nat, (∃ r, table[p]? = some r ∧ r.1 ≤ id ∧ id < r.2) ∧
      ∀ p' : Nat, (∃ r, table[p']? = some r ∧ r.1 ≤ id ∧ id < r.2) → p' = p

end MiniCFD.Spec.Partition
