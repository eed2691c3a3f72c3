import Verif.Model.Parallel
import Verif.Model.Euler
import Mathlib.Data.Fin.VecNotation

/-!
# Euler's equations on a mesh

`dg::General` with `Projection` and `rotated::Euler<euler::Exact<Gas, 3>>`, the solver of the demos
(demo/euler/sourceless.hpp:26-48): what `Part`, `Cell`, `Face` and the solvers of the faces make of the nodes is a mesh of
Gaussian points with weights and frames.
-/

namespace MiniCFD.Gas

open MiniCFD.Residual MiniCFD.Projection MiniCFD.Parallel MiniCFD.Euler

/-- The components of a `Value` as those of a `Conservative`, euler/types.hpp:28-67. -/
def tup (v : Value 5) : Tup 2 := ⟨v 0, ![v 1, v 2, v 3], v 4⟩

/-- The converse. -/
def val (c : Tup 2) : Value 5 := ![c.mass, c.mom 0, c.mom 1, c.mom 2, c.energy]

/-- A Gaussian point of a face: its place, its weight, its frame, and `GetFluxUpwind` (rotated/euler.hpp:111-121) of the
solver rotated to it.  (That of the exact solver is a loop which may not end for arguments that are no gases, and it
remembers `star_u`: see `Model/Exact.lean`.  Here it is some function.) -/
structure Site (Pt : Type) where
  coord : Pt
  weight : ℝ
  frame : Frame 2
  solver : Tup 2 → Tup 2 → Tup 2

/-- The solver of a face point, rotated/euler.hpp:99-193. -/
noncomputable def riemann (γ : ℝ) (F : Frame 2) (solver : Tup 2 → Tup 2 → Tup 2) : Riemann 5 where
  upwind l r := val (solver (tup l) (tup r))
  solidWall u := val (solidWall γ F (tup u))
  supersonicOutlet u := val (supersonicOutlet γ F (tup u))
  supersonicInlet u := val (supersonicInlet γ F (tup u))
  subsonicInlet u v := val (subsonicInlet γ F (tup u) (tup v))
  subsonicOutlet u v := val (subsonicOutlet γ F (tup u) (tup v))
  smart u v := val (smartBoundary γ F (tup u) (tup v))

/-- What a part on one process holds: for each cell the orthonormal basis with the rule of the cell, and `GetGradValue`
of the basis; the faces between cells as holder, sharer and points; the faces on each boundary. -/
structure Mesh (Pt : Type) (n : Nat) where
  count : Nat
  basis : Fin count → Basis Pt n
  gradValue : Fin count → (Fin (n + 1) → ℝ) → Pt → Fin 3 → ℝ
  nodes : Fin count → Fin (n + 1) → Pt
  inter : Fin count → Bool
  faces : List (Fin count × Fin count × List (Site Pt))
  boundary : String → Option (List (Fin count × List (Site Pt)))

variable {Pt : Type} {n : Nat}

/-- `Rotate`, rotated/euler.hpp:39-41. -/
noncomputable def Site.face (γ : ℝ) (q : Site Pt) : FacePoint Pt 5 := ⟨q.coord, q.weight, riemann γ q.frame q.solver⟩

/-- The mesh with the equations on it. -/
noncomputable def Mesh.grid (m : Mesh Pt n) (γ : ℝ) : Grid Pt 5 n where
  count := m.count
  cell p u := ofProjection (m.basis p) (m.gradValue p) (fun v r k => val (fluxMatrix γ (tup v) k) r) u (m.nodes p)
  inter := m.inter
  faces := m.faces.map fun f => ⟨f.1, f.2.1, f.2.2.map (Site.face γ)⟩
  boundary name := (m.boundary name).map fun l => l.map fun f => ⟨f.1, f.2.map (Site.face γ)⟩

/-- `GetResidualColumn` of the scheme on the mesh. -/
noncomputable def Mesh.rates (m : Mesh Pt n) (γ : ℝ) (c : Conditions Pt 5) (t : ℝ) (u : Fin m.count → Coeff 5 n) :
    Fin m.count → Coeff 5 n :=
  (m.grid γ).rates c t u

end MiniCFD.Gas
