import Verif.Model.Parallel
import Verif.Model.Simple

/-!
# Scalar conservation laws on a mesh

`dg::General` with `Projection`, for the scalar solvers `rotated::Single` and `rotated::Burgers`: what `Part`,
`Cell`, `Face` and the solvers of the faces make of the nodes is a mesh of Gaussian points with weights and normals.
-/

namespace MiniCFD.Energy

open MiniCFD.Residual MiniCFD.Projection MiniCFD.Parallel

/-- `simple::Single` (simple/single.hpp) or `simple::Burgers` (simple/burgers.hpp). -/
inductive Law
  | single
  | burgers

/-- `GetFluxUpwind` for the coefficient `alpha` in the direction of the normal, single.hpp:33-40, burgers.hpp:32-48. -/
noncomputable def Law.upwind : Law → ℝ → ℝ → ℝ → ℝ
  | .single => Simple.singleUpwind
  | .burgers => Simple.burgersUpwind

/-- `GetFlux`, single.hpp:45-47, burgers.hpp:53-55. -/
noncomputable def Law.flux : Law → ℝ → ℝ → ℝ
  | .single => Simple.singleFlux
  | .burgers => Simple.burgersFlux

/-- `GetFluxMatrix`, rotated/simple.hpp:88-94, rotated/burgers.hpp:25-32. -/
noncomputable def Law.matrix : Law → (Fin 3 → ℝ) → ℝ → Fin 3 → ℝ
  | .single => Simple.simpleFluxMatrix
  | .burgers => Simple.burgersFluxMatrix

/-- The solver of a face point after `Rotate`, rotated/simple.hpp:45-87.  The last three functions `return {}`, a matrix
of `Eigen` whose entries are not set: `junk` is whatever is found there. -/
noncomputable def riemann (law : Law) (alpha : ℝ) (junk : Value 1 → Value 1 → Value 1) : Riemann 1 where
  upwind l r := fun _ => law.upwind alpha (l 0) (r 0)
  solidWall _ := fun _ => 0
  supersonicOutlet u := fun _ => law.flux alpha (u 0)
  supersonicInlet u := fun _ => law.flux alpha (u 0)
  subsonicInlet := junk
  subsonicOutlet := junk
  smart := junk

/-- A Gaussian point of a face: its place, its weight and the normal there, `frame[X]`. -/
structure Point (Pt : Type) where
  coord : Pt
  weight : ℝ
  normal : Fin 3 → ℝ

/-- What a part on one process holds: for each cell the orthonormal basis with the rule of the cell, and `GetGradValue`
of the basis; the faces between cells as holder, sharer and points; the faces on each boundary. -/
structure Mesh (Pt : Type) (n : Nat) where
  count : Nat
  basis : Fin count → Basis Pt n
  gradValue : Fin count → (Fin (n + 1) → ℝ) → Pt → Fin 3 → ℝ
  nodes : Fin count → Fin (n + 1) → Pt
  inter : Fin count → Bool
  faces : List (Fin count × Fin count × List (Point Pt))
  boundary : String → Option (List (Fin count × List (Point Pt)))

variable {Pt : Type} {n : Nat}

/-- The solver is rotated to the normal, rotated/simple.hpp:45-53. -/
noncomputable def Point.face (law : Law) (a : Fin 3 → ℝ) (junk : Value 1 → Value 1 → Value 1) (q : Point Pt) :
    FacePoint Pt 1 :=
  ⟨q.coord, q.weight, riemann law (Simple.aNormal a q.normal) junk⟩

/-- The mesh with the equation on it: `SetConvectionCoefficient(a)`. -/
noncomputable def Mesh.grid (m : Mesh Pt n) (law : Law) (a : Fin 3 → ℝ) (junk : Value 1 → Value 1 → Value 1) :
    Grid Pt 1 n where
  count := m.count
  cell p u := ofProjection (m.basis p) (m.gradValue p) (fun v r k => law.matrix a (v r) k) u (m.nodes p)
  inter := m.inter
  faces := m.faces.map fun f => ⟨f.1, f.2.1, f.2.2.map (Point.face law a junk)⟩
  boundary name := (m.boundary name).map fun l => l.map fun f => ⟨f.1, f.2.map (Point.face law a junk)⟩

/-- `GetResidualColumn` of the scheme on the mesh. -/
noncomputable def Mesh.rates (m : Mesh Pt n) (law : Law) (a : Fin 3 → ℝ) (junk : Value 1 → Value 1 → Value 1)
    (c : Conditions Pt 1) (t : ℝ) (u : Fin m.count → Coeff 1 n) : Fin m.count → Coeff 1 n :=
  (m.grid law a junk).rates c t u

end MiniCFD.Energy
