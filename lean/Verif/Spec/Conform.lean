import Verif.Spec.SortNodes
import Mathlib.Data.Real.Basic

/-!
# Sides of the standard cells in local coordinates
-/

namespace MiniCFD.Spec.Conform

open MiniCFD.Spec.SortNodes

variable {K : Type*} [Field K]

/-- Where a point of local coordinates sits in the standard cell (four times the cell of unit size, see
`MiniCFD.Spec.SortNodes`). -/
def place : SortNodes.Shape → (Fin 3 → K) → Fin 3 → K
  | .tetrahedron, p => ![4 * p 1, 4 * p 2, 4 * (1 - p 0 - p 1 - p 2)]
  | .pyramid, p => ![2 * p 0 * (1 - p 2), 2 * p 1 * (1 - p 2), 2 * (1 + p 2)]
  | .wedge, p => ![4 * p 1, 4 * (1 - p 0 - p 1), 2 * (1 + p 2)]
  | .hexahedron, p => ![4 * p 0, 4 * p 1, 4 * p 2]

/-- The value of the form of a bounding plane at that place. -/
noncomputable def height (shape : SortNodes.Shape) (l : Int × Int × Int × Int) (p : Fin 3 → ℝ) : ℝ :=
  l.1 * place shape p 0 + l.2.1 * place shape p 1 + l.2.2.1 * place shape p 2 + l.2.2.2

/-- The local coordinates of the points of a cell. -/
def InCell : SortNodes.Shape → (Fin 3 → ℝ) → Prop
  | .tetrahedron, p => 0 ≤ p 0 ∧ 0 ≤ p 1 ∧ 0 ≤ p 2 ∧ p 0 + p 1 + p 2 ≤ 1
  | .pyramid, p | .hexahedron, p => ∀ i, -1 ≤ p i ∧ p i ≤ 1
  | .wedge, p => 0 ≤ p 0 ∧ 0 ≤ p 1 ∧ p 0 + p 1 ≤ 1 ∧ -1 ≤ p 2 ∧ p 2 ≤ 1

/-- The local coordinates of the points of a face with `m` nodes. -/
def InFace (m : Nat) (q : Fin 2 → ℝ) : Prop :=
  if m = 3 ∨ m = 6 then 0 ≤ q 0 ∧ 0 ≤ q 1 ∧ q 0 + q 1 ≤ 1 else ∀ i, -1 ≤ q i ∧ q i ≤ 1

/-- The direction `d` of local coordinates leads from `p` into the cell, through its side on the plane `l`. -/
def Inward (shape : SortNodes.Shape) (l : Int × Int × Int × Int) (p d : Fin 3 → ℝ) : Prop :=
  ∃ ε : ℝ, 0 < ε ∧ ∀ t : ℝ, 0 < t → t < ε → 0 < height shape l (p + t • d)

/-- Whether local coordinates are right-handed in the standard cell. -/
noncomputable def hand : SortNodes.Shape → ℝ
  | .tetrahedron => -1
  | _ => 1

/-! ### Listing the nodes of a face from another corner, or the other way round -/

/-- The nodes of a list in another order. -/
def reindex (f : Nat → Nat) (r : List Nat) : List Nat := (List.range r.length).map fun j => r.getD (f j) 0

/-- Start at the next corner: corners, middles of edges and the centre follow. -/
def rotate (m j : Nat) : Nat :=
  let c := cornerCount m
  if j < c then (j + 1) % c else if j < 2 * c then c + (j - c + 1) % c else j

/-- Go round the other way. -/
def reverse (m j : Nat) : Nat :=
  let c := cornerCount m
  if j < c then (c - j) % c else if j < 2 * c then c + (2 * c - 1 - j) else j

/-- Two listings of the nodes of one polygon. -/
inductive Same (r : List Nat) : List Nat → Prop
  | refl : Same r r
  | rotate {r' : List Nat} : Same r r' → Same r (reindex (rotate r'.length) r')
  | reverse {r' : List Nat} : Same r r' → Same r (reindex (reverse r'.length) r')

end MiniCFD.Spec.Conform
