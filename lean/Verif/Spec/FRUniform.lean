import Verif.Spec.FR
import Verif.Model.LocalHex

/-!
# Uniform flow for flux reconstruction

A state is uniform if every point of every cell has it; the solvers and the boundary conditions are consistent with
it if the flux they return is the flux of the state along the normal.
-/

namespace MiniCFD.Spec.FR

open MiniCFD.FR MiniCFD.Projection

variable {D : Type} {K N : Nat}

/-- The flux through the boundary of the given name is that of the uniform state. -/
def Passes (F : Matrix (Fin K) (Fin 3) ℝ) (P : Part D K N) (name : String) (flux : FacePoint D K → Value K) : Prop :=
  ∀ faces, P.boundary name = some faces → ∀ f ∈ faces, ∀ q ∈ f.points, ∀ r, flux q r = ∑ i, F r i * q.normal i

/-- The uniform state with data `d` and flux `F`. -/
structure Uniform (d : D) (F : Matrix (Fin K) (Fin 3) ℝ) (ph : Physics D K) (P : Part D K N)
    (c : Residual.Conditions Vec K) (t : ℝ) : Prop where
  data : ∀ p q, (P.cells p).data q = d
  flux : ∀ p q, (P.cells p).flux q = F
  ghost : ∀ f ∈ P.ghostFaces, ∀ q, f.sharer.data q = d
  /-- No viscous flux, as there is no gradient. -/
  convective : ph.fluxMatrix (ph.value d) = F
  locals : ∀ f ∈ P.localFaces, ∀ q ∈ f.points, ∀ r, q.common d d r = ∑ i, F r i * q.normal i
  ghosts : ∀ f ∈ P.ghostFaces, ∀ q ∈ f.points, ∀ r, q.common d d r = ∑ i, F r i * q.normal i
  wall : ∀ name ∈ c.solidWall, Passes F P name fun q => q.riemann.solidWall (ph.value d)
  outlet : ∀ name ∈ c.supersonicOutlet, Passes F P name fun q => q.outlet d
  inlet : ∀ nf ∈ c.supersonicInlet, Passes F P nf.1 fun q => q.riemann.supersonicInlet (nf.2 q.coord t)
  subInlet : ∀ nf ∈ c.subsonicInlet, Passes F P nf.1 fun q => q.riemann.subsonicInlet (ph.value d) (nf.2 q.coord t)
  subOutlet : ∀ nf ∈ c.subsonicOutlet, Passes F P nf.1 fun q => q.riemann.subsonicOutlet (ph.value d) (nf.2 q.coord t)
  smart : ∀ nf ∈ c.smart, Passes F P nf.1 fun q => q.riemann.smart (ph.value d) (nf.2 q.coord t)

/-- The cell is a hexahedron with the given shape functions and nodes. -/
def OnHexahedron (x : Fin (N + 1) → ℝ) (g : LocalHex.Geometry) (c : Cell D K N) : Prop :=
  c.map = g.map ∧ ∀ q, (LocalHex.cache g (loc x q)).map (fun h => h.assoc) = some (c.assoc q)

/-- The degree needed for the metric terms of hexahedra: they are products of two derivatives of the map. -/
def metricDegree : Shape.Kind → Nat
  | .hexahedron8 => 2
  | _ => 4

end MiniCFD.Spec.FR
