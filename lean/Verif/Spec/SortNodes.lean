import Mathlib.Data.List.Perm.Basic
import Mathlib.Algebra.Group.Int.Defs
import Mathlib.Data.Fin.VecNotation
import Mathlib.Algebra.BigOperators.Fin
import Mathlib.Data.Real.Basic

/-!
# The CGNS numbering of the nodes of cells

Positions of the nodes of the standard cells, as the standard numbers them (corners first, then the
middles of edges, then of faces, then of the cell), their faces as the sets of nodes on a supporting
plane, and what it means to list the nodes of a face properly.  Coordinates are four times those of a
cell of unit size, to be integers.
-/

namespace MiniCFD.Spec.SortNodes

/-- A point with integer coordinates. -/
abbrev Pt := Int × Int × Int

/-- The mean of some points of a list, given by their indices. -/
def mean (l : List Pt) (is : List Nat) : Pt :=
  let ps := is.map fun i => l.getD i (0, 0, 0)
  ((ps.map (·.1)).sum / is.length, (ps.map (·.2.1)).sum / is.length, (ps.map (·.2.2)).sum / is.length)

/-- The shapes of cells. -/
inductive Shape | tetrahedron | pyramid | wedge | hexahedron

/-- Positions of the corners. -/
def Shape.corners : Shape → List Pt
  | tetrahedron => [(0, 0, 0), (4, 0, 0), (0, 4, 0), (0, 0, 4)]
  | pyramid => [(-4, -4, 0), (4, -4, 0), (4, 4, 0), (-4, 4, 0), (0, 0, 4)]
  | wedge => [(0, 0, 0), (4, 0, 0), (0, 4, 0), (0, 0, 4), (4, 0, 4), (0, 4, 4)]
  | hexahedron => [(-4, -4, -4), (4, -4, -4), (4, 4, -4), (-4, 4, -4), (-4, -4, 4), (4, -4, 4), (4, 4, 4),
      (-4, 4, 4)]

/-- The corners that the further nodes lie in the middle of. -/
def Shape.middles : Shape → List (List Nat)
  | tetrahedron => [[0, 1], [1, 2], [2, 0], [0, 3], [1, 3], [2, 3]]
  | pyramid => [[0, 1], [1, 2], [2, 3], [3, 0], [0, 4], [1, 4], [2, 4], [3, 4], [0, 1, 2, 3]]
  | wedge => [[0, 1], [1, 2], [2, 0], [0, 3], [1, 4], [2, 5], [3, 4], [4, 5], [5, 3], [0, 1, 4, 3],
      [1, 2, 5, 4], [2, 0, 3, 5]]
  | hexahedron => [[0, 1], [1, 2], [2, 3], [3, 0], [0, 4], [1, 5], [2, 6], [3, 7], [4, 5], [5, 6], [6, 7],
      [7, 4], [0, 1, 2, 3], [0, 1, 5, 4], [1, 2, 6, 5], [2, 3, 7, 6], [3, 0, 4, 7], [4, 5, 6, 7],
      [0, 1, 2, 3, 4, 5, 6, 7]]

/-- Positions of the first `n` nodes. -/
def Shape.positions (s : Shape) (n : Nat) : List Pt :=
  (s.corners ++ s.middles.map (mean s.corners)).take n

/-- The planes `a x + b y + c z + d = 0` that bound the cell; the form is positive inside. -/
def Shape.planes : Shape → List (Int × Int × Int × Int)
  | tetrahedron => [(1, 0, 0, 0), (0, 1, 0, 0), (0, 0, 1, 0), (-1, -1, -1, 4)]
  | pyramid => [(0, 0, 1, 0), (1, 0, -1, 4), (-1, 0, -1, 4), (0, 1, -1, 4), (0, -1, -1, 4)]
  | wedge => [(1, 0, 0, 0), (0, 1, 0, 0), (-1, -1, 0, 4), (0, 0, 1, 0), (0, 0, -1, 4)]
  | hexahedron => [(1, 0, 0, 4), (-1, 0, 0, 4), (0, 1, 0, 4), (0, -1, 0, 4), (0, 0, 1, 4), (0, 0, -1, 4)]

/-- Value of such a form. -/
def form (l : Int × Int × Int × Int) (p : Pt) : Int := l.1 * p.1 + l.2.1 * p.2.1 + l.2.2.1 * p.2.2 + l.2.2.2

/-- The indices of the nodes on a plane. -/
def faceNodes (ps : List Pt) (l : Int × Int × Int × Int) : List Nat :=
  (List.range ps.length).filter fun i => form l (ps.getD i (0, 0, 0)) = 0

/-- How many of the nodes of a face are corners. -/
def cornerCount (n : Nat) : Nat := if n = 3 ∨ n = 6 then 3 else 4

/-- The product `(b - a) × (c - b) · (q - a)`. -/
def triple (a b c q : Pt) : Int :=
  let u : Pt := (b.1 - a.1, b.2.1 - a.2.1, b.2.2 - a.2.2)
  let v : Pt := (c.1 - b.1, c.2.1 - b.2.1, c.2.2 - b.2.2)
  let w : Pt := (q.1 - a.1, q.2.1 - a.2.1, q.2.2 - a.2.2)
  (u.2.1 * v.2.2 - u.2.2 * v.2.1) * w.1 + (u.2.2 * v.1 - u.1 * v.2.2) * w.2.1
    + (u.1 * v.2.1 - u.2.1 * v.1) * w.2.2

/-- The nodes `r` of a face are listed properly: corners, middles of edges, middle of the face, and the
corners go round counter-clockwise seen from outside. -/
structure Proper (ps : List Pt) (r : List Nat) : Prop where
  /-- Seen from the turn at each corner, all nodes off the face are on the inner side. -/
  outward : ∀ i < cornerCount r.length, ∀ q < ps.length,
    let c := cornerCount r.length
    let at' := fun j => ps.getD (r.getD (j % c) 0) (0, 0, 0)
    let t := triple (at' i) (at' (i + 1)) (at' (i + 2)) (ps.getD q (0, 0, 0))
    if q ∈ r then t = 0 else t < 0
  /-- The nodes after the corners are the middles of the edges, in the same order. -/
  middle : ∀ i < cornerCount r.length, cornerCount r.length < r.length →
    let c := cornerCount r.length
    ps.getD (r.getD (c + i) 0) (0, 0, 0) = mean ps [r.getD i 0, r.getD ((i + 1) % c) 0]
  /-- A node after those is the middle of the face. -/
  centre : 2 * cornerCount r.length < r.length →
    ps.getD (r.getD (2 * cornerCount r.length) 0) (0, 0, 0) = mean ps (r.take (cornerCount r.length))

/-- The directed edges round a face. -/
def directedEdges (r : List Nat) : List (Nat × Nat) :=
  let c := cornerCount r.length
  (List.range c).map fun i => (r.getD i 0, r.getD ((i + 1) % c) 0)

end MiniCFD.Spec.SortNodes
