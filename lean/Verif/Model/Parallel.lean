import Verif.Model.Residual
import Verif.Model.RK

/-!
# Model of a run on several processes

Each process holds the cells of its part and copies of their neighbours (`include/mini/mesh/part.hpp`), computes the
residual of its own cells (`include/mini/spatial/fem.hpp:173-183`, see `Verif.Model.Residual`) and advances its own
column (`include/mini/temporal/rk.hpp`, see `Verif.Model.RK`).  Processes meet in `ShareGhostCellCoeffs` and
`UpdateGhostCellCoeffs` (part.hpp:1258-1303, called by fem.hpp:173-183), after which the copies hold the coefficients of
the owners (C08), so that all evaluations of the residual are in step.

Between two evaluations processes do not communicate: a step on all processes is a step on the family of columns.
-/

namespace MiniCFD.Parallel

open MiniCFD.Residual MiniCFD.Projection MiniCFD.Column

variable {Pt : Type} {K n : Nat}

/-- A mesh on one process: what `Part` holds for `n_parts = 1`.  `cell p` makes a cell of its coefficients. -/
structure Grid (Pt : Type) (K n : Nat) where
  count : Nat
  cell : Fin count → Coeff K n → Cell Pt K n
  inter : Fin count → Bool
  faces : List (LocalFace Pt K count)
  boundary : String → Option (List (BoundaryFace Pt K count))

/-- The part with the given coefficients. -/
def Grid.part (g : Grid Pt K n) (u : Fin g.count → Coeff K n) : Part Pt K n :=
  ⟨g.count, fun p => g.cell p (u p), g.inter, g.faces, [], g.boundary⟩

/-- What one of several processes holds: `of i` is the cell of the mesh which it stores as cell `i`.  A ghost face is
given by its holder here, the cell of the mesh on the other side, and its points. -/
structure Rank (Pt : Type) (K N : Nat) where
  count : Nat
  of : Fin count → Fin N
  inter : Fin count → Bool
  faces : List (LocalFace Pt K count)
  ghosts : List (Fin count × Fin N × List (FacePoint Pt K))
  boundary : String → Option (List (BoundaryFace Pt K count))

/-- The part of a process, with its own coefficients `u` and those received from the owners of its ghost cells. -/
def Rank.part (g : Grid Pt K n) (rank : Rank Pt K g.count) (u : Fin rank.count → Coeff K n)
    (received : Fin g.count → Coeff K n) : Part Pt K n :=
  ⟨rank.count, fun i => g.cell (rank.of i) (u i), rank.inter, rank.faces,
    rank.ghosts.map fun f => ⟨f.1, g.cell f.2.1 (received f.2.1), f.2.2⟩, rank.boundary⟩

/-- The coefficients in the column returned by `GetResidualColumn`; zero if it throws. -/
noncomputable def rates (P : Part Pt K n) (c : Conditions Pt K) (t : ℝ) : Fin P.count → Coeff K n :=
  match generalResidual P c t with
  | some res => fun p r i => (entry res p.val r i).getD 0
  | none => fun _ _ _ => 0

/-- `GetResidualColumn` of one process. -/
noncomputable def Grid.rates (g : Grid Pt K n) (c : Conditions Pt K) (t : ℝ) (u : Fin g.count → Coeff K n) :
    Fin g.count → Coeff K n := Parallel.rates (g.part u) c t

/-- The mesh on `m` processes: `place p` is the process that owns cell `p` and the position of the cell there. -/
structure Cluster (g : Grid Pt K n) (m : Nat) where
  rank : Fin m → Rank Pt K g.count
  place : Fin g.count → (k : Fin m) × Fin (rank k).count

/-- A column on every process. -/
abbrev Columns {g : Grid Pt K n} {m : Nat} (d : Cluster g m) := (k : Fin m) → Fin (d.rank k).count → Coeff K n

/-- `GetResidualColumn` on all processes: the ghost cells have the coefficients of their owners. -/
noncomputable def Cluster.rates {g : Grid Pt K n} {m : Nat} (d : Cluster g m) (c : Conditions Pt K) (t : ℝ)
    (u : Columns d) : Columns d := fun k =>
  Parallel.rates ((d.rank k).part g (u k) fun p => u (d.place p).1 (d.place p).2) c t

end MiniCFD.Parallel
