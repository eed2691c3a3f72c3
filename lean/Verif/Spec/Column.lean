import Verif.Model.Column
import Mathlib.Algebra.BigOperators.Group.List.Basic

namespace MiniCFD.Spec.Column
open MiniCFD.Column

/-- Blocks `[off p, off p + sizes p)` tile `[0, total)`. -/
structure Layout (sizes : List Nat) (off : Nat → Nat) (total : Nat) : Prop where
  fits : ∀ (p s : Nat), sizes[p]? = some s → off p + s ≤ total
  disjoint : ∀ (p q s t : Nat), sizes[p]? = some s → sizes[q]? = some t → p ≠ q →
    off p + s ≤ off q ∨ off q + t ≤ off p
  cover : ∀ x, x < total → ∃ p s, sizes[p]? = some s ∧ off p ≤ x ∧ x < off p + s

/-- What contribution `c` adds to scalar `j` of cell `p`. -/
def amount {R : Type} [Zero R] (p j : Nat) (c : Contribution R) : R :=
  if c.cell = p ∧ c.shift ≤ j then (c.data[j - c.shift]?).getD 0 else 0

end MiniCFD.Spec.Column
