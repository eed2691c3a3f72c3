import Verif.Spec.SortNodes

/-!
# What the faces of a part should be

Sides of cells given by their nodes, and who is next to whom according to a list of pairs of cells.
-/

namespace MiniCFD.Spec.Faces

open MiniCFD.Spec.SortNodes

/-- The shape of a linear cell, by the number of its nodes. -/
def shapeWith : Nat → Option Shape
  | 4 => some .tetrahedron
  | 5 => some .pyramid
  | 6 => some .wedge
  | 8 => some .hexahedron
  | _ => none

/-- Up to order, `face` are the nodes on one of the sides of `cell`. -/
def Side (cell face : List Nat) : Prop :=
  ∃ shape, shapeWith cell.length = some shape ∧ ∃ l ∈ shape.planes,
    face.Perm ((faceNodes (shape.positions cell.length) l).map (cell.getD · 0))

/-- `face` lists nodes of `cell` going round a side, counter-clockwise seen from outside. -/
def Outward (cell face : List Nat) : Prop :=
  ∃ shape, shapeWith cell.length = some shape ∧ ∃ r, face = r.map (cell.getD · 0) ∧
    (∃ l ∈ shape.planes, r.Perm (faceNodes (shape.positions cell.length) l)) ∧
    Proper (shape.positions cell.length) r

/-- The nodes that two cells have in common. -/
def shared (a b : List Nat) : List Nat := a.filter (· ∈ b)

/-- Who is paired with `me`, in the order of the pairs. -/
def partners (me : Nat) (pairs : List (Nat × Nat)) : List Nat :=
  pairs.flatMap fun p => (if p.1 = me then [p.2] else []) ++ (if p.2 = me then [p.1] else [])

/-- The numbers of the pairs in which `me` is, if they are numbered from `start` on. -/
def places (start me : Nat) (pairs : List (Nat × Nat)) : List Nat :=
  (pairs.zipIdx start).flatMap fun p => (if p.1.1 = me then [p.2] else []) ++ (if p.1.2 = me then [p.2] else [])

/-- Who comes second in a pair with `me` first, in the order of the pairs. -/
def seconds (me : Nat) (pairs : List (Nat × Nat)) : List Nat :=
  pairs.flatMap fun p => if p.1 = me then [p.2] else []

/-- The numbers of the pairs in which `me` is first, if they are numbered from `start` on. -/
def firstPlaces (start me : Nat) (pairs : List (Nat × Nat)) : List Nat :=
  (pairs.zipIdx start).flatMap fun p => if p.1.1 = me then [p.2] else []

end MiniCFD.Spec.Faces
