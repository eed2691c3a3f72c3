import Verif.Model.Parallel
import Mathlib.Data.List.Forall2

/-!
# When several processes hold the same mesh as one

Every cell sees the same points on its surface, with the same neighbours behind them, and the solvers there agree, up to
the direction from which they look at the face.
-/

namespace MiniCFD.Spec.Parallel

open MiniCFD.Parallel MiniCFD.Residual MiniCFD.Projection

variable {Pt : Type} {K n : Nat}

/-- A point on the surface of a cell: the flux out of the cell, given the state inside and that outside, and the cell
(of `N` cells) on the other side. -/
structure SurfacePoint (Pt : Type) (K N : Nat) where
  coord : Pt
  weight : ℝ
  out : Value K → Value K → Value K
  other : Fin N

/-- A face seen by its holder. -/
def fromHolder {N : Nat} (points : List (FacePoint Pt K)) (other : Fin N) : List (SurfacePoint Pt K N) :=
  points.map fun q => ⟨q.coord, q.weight, q.riemann.upwind, other⟩

/-- A face seen by its sharer. -/
def fromSharer {N : Nat} (points : List (FacePoint Pt K)) (other : Fin N) : List (SurfacePoint Pt K N) :=
  points.map fun q => ⟨q.coord, q.weight, fun u v r => -q.riemann.upwind v u r, other⟩

/-- The surface of cell `p`, `of` giving the cells of the mesh. -/
def sides {N count : Nat} (of : Fin count → Fin N) (faces : List (LocalFace Pt K count)) (p : Fin count) :
    List (SurfacePoint Pt K N) :=
  faces.flatMap fun f => (if f.holder = p then fromHolder f.points (of f.sharer) else []) ++
    (if f.sharer = p then fromSharer f.points (of f.holder) else [])

/-- The surface of a cell in the mesh. -/
def surface (g : Grid Pt K n) (p : Fin g.count) : List (SurfacePoint Pt K g.count) := sides id g.faces p

/-- The surface of a cell on a process. -/
def rankSurface {g : Grid Pt K n} (rank : Rank Pt K g.count) (p : Fin rank.count) :
    List (SurfacePoint Pt K g.count) :=
  sides rank.of rank.faces p ++ rank.ghosts.flatMap fun f => if f.1 = p then fromHolder f.2.2 f.2.1 else []

/-- The points of the faces of a cell on the boundary. -/
def rim {count : Nat} (faces : List (BoundaryFace Pt K count)) (p : Fin count) : List (FacePoint Pt K) :=
  faces.flatMap fun f => if f.holder = p then f.points else []

/-- The same points, in any order. -/
def SameUpTo {α : Type*} (R : α → α → Prop) (a b : List α) : Prop := ∃ l, b.Perm l ∧ List.Forall₂ R a l

/-- The process holds its share of the mesh, with coefficients `u`, as far as cell `i` is concerned: the same surface
and the same faces on boundaries. -/
structure SeesSame (g : Grid Pt K n) (rank : Rank Pt K g.count) (c : Conditions Pt K) (t : ℝ)
    (u : Fin g.count → Coeff K n) (i : Fin rank.count) : Prop where
  surface : SameUpTo (fun q q' => q'.coord = q.coord ∧ q'.weight = q.weight ∧ q'.other = q.other ∧
      q'.out ((g.cell (rank.of i) (u (rank.of i))).value q.coord) ((g.cell q.other (u q.other)).value q.coord) =
        q.out ((g.cell (rank.of i) (u (rank.of i))).value q.coord) ((g.cell q.other (u q.other)).value q.coord))
    (surface g (rank.of i)) (rankSurface rank i)
  rim : ∀ job ∈ jobs c t, ∃ faces faces', g.boundary job.1 = some faces ∧ rank.boundary job.1 = some faces' ∧
    SameUpTo (fun q q' => q'.coord = q.coord ∧ q'.weight = q.weight ∧
      job.2 q' ((g.cell (rank.of i) (u (rank.of i))).value q.coord) =
        job.2 q ((g.cell (rank.of i) (u (rank.of i))).value q.coord))
      (rim faces (rank.of i)) (rim faces' i)

/-- The columns of all processes hold the coefficients `u`. -/
def spread {g : Grid Pt K n} {m : Nat} (d : Cluster g m) (u : Fin g.count → Coeff K n) : Columns d :=
  fun k i => u ((d.rank k).of i)

/-- The owner of a cell has it. -/
def Owns {g : Grid Pt K n} {m : Nat} (d : Cluster g m) : Prop := ∀ p, (d.rank (d.place p).1).of (d.place p).2 = p

end MiniCFD.Spec.Parallel
