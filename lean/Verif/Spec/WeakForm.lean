import Verif.Model.Residual

/-!
# The weak form of a conservation law

On each cell, tested with one basis function: the integral of the flux against the gradient of the function, minus the
flux out of the cell against the function, integrals being sums over Gaussian points.
-/

namespace MiniCFD.Spec.WeakForm

open MiniCFD.Residual MiniCFD.Projection

variable {Pt : Type} {K n : Nat}

/-- `∑ q, w (q) * flux (q) * test (q)` over the points of a face. -/
noncomputable def over (points : List (FacePoint Pt K)) (flux : FacePoint Pt K → Value K)
    (test : FacePoint Pt K → ℝ) (r : Fin K) : ℝ :=
  (points.map fun q => q.weight * flux q r * test q).sum

/-- The integral over the cell. -/
noncomputable def inside (c : Cell Pt K n) (r : Fin K) (i : Fin (n + 1)) : ℝ :=
  (c.volume.map fun v => v.weight * ∑ k, v.flux r k * v.grad k i).sum

/-- The integral of the flux out of cell `p` against a test function, through the faces of which it is the holder and
those of which it is the sharer.  `T` is the trace of a cell at a point, `φ` the value of the test function. -/
noncomputable def outLocal (T : Cell Pt K n → FacePoint Pt K → Value K) (P : Part Pt K n) (p : Fin P.count)
    (φ : FacePoint Pt K → ℝ) (r : Fin K) : ℝ :=
  (P.localFaces.map fun f =>
    let flux := fun q : FacePoint Pt K => q.riemann.upwind (T (P.cells f.holder) q) (T (P.cells f.sharer) q)
    (if f.holder = p then over f.points flux φ r else 0) - (if f.sharer = p then over f.points flux φ r else 0)).sum

/-- The same through the faces shared with other parts. -/
noncomputable def outGhost (T : Cell Pt K n → FacePoint Pt K → Value K) (P : Part Pt K n) (p : Fin P.count)
    (φ : FacePoint Pt K → ℝ) (r : Fin K) : ℝ :=
  (P.ghostFaces.map fun f =>
    if f.holder = p then over f.points (fun q => q.riemann.upwind (T (P.cells f.holder) q) (T f.sharer q)) φ r
    else 0).sum

/-- The same through one boundary. -/
noncomputable def outBoundary (T : Cell Pt K n → FacePoint Pt K → Value K) (P : Part Pt K n) (p : Fin P.count)
    (φ : FacePoint Pt K → ℝ) (r : Fin K) (name : String) (flux : FacePoint Pt K → Value K → Value K) : ℝ :=
  match P.boundary name with
  | none => 0
  | some faces => (faces.map fun f =>
      if f.holder = p then over f.points (fun q => flux q (T (P.cells f.holder) q)) φ r else 0).sum

/-- The same through all boundaries with a registered condition. -/
noncomputable def outBoundaries (T : Cell Pt K n → FacePoint Pt K → Value K) (P : Part Pt K n) (c : Conditions Pt K)
    (t : ℝ) (p : Fin P.count) (φ : FacePoint Pt K → ℝ) (r : Fin K) : ℝ :=
  let out := outBoundary T P p φ r
  (c.solidWall.map fun name => out name fun q u => q.riemann.solidWall u).sum +
  (c.supersonicOutlet.map fun name => out name fun q u => q.riemann.supersonicOutlet u).sum +
  (c.supersonicInlet.map fun nf => out nf.1 fun q _ => q.riemann.supersonicInlet (nf.2 q.coord t)).sum +
  (c.subsonicInlet.map fun nf => out nf.1 fun q u => q.riemann.subsonicInlet u (nf.2 q.coord t)).sum +
  (c.subsonicOutlet.map fun nf => out nf.1 fun q u => q.riemann.subsonicOutlet u (nf.2 q.coord t)).sum +
  (c.smart.map fun nf => out nf.1 fun q u => q.riemann.smart u (nf.2 q.coord t)).sum

/-- The weak form on cell `p`, tested with basis function `i`, of which `φ` is the value at points of faces. -/
noncomputable def weakForm (T : Cell Pt K n → FacePoint Pt K → Value K) (P : Part Pt K n) (c : Conditions Pt K) (t : ℝ)
    (p : Fin P.count) (i : Fin (n + 1)) (φ : FacePoint Pt K → ℝ) (r : Fin K) : ℝ :=
  inside (P.cells p) r i - outLocal T P p φ r - outGhost T P p φ r - outBoundaries T P c t p φ r

/-! ### Uniform states -/

/-- What is needed of face, wall and inlet points for the flux of the uniform state `u` to be `F · normal` there:
`normal` is the unit normal that the solver has been rotated to. -/
structure Uniform (u : Value K) (F : Fin K → Fin 3 → ℝ) (normal : FacePoint Pt K → Fin 3 → ℝ)
    (P : Part Pt K n) (c : Conditions Pt K) (t : ℝ) : Prop where
  /-- All cells, also those of other parts, have the state `u` wherever it is asked for. -/
  value : ∀ p x, (P.cells p).value x = u
  nodal : ∀ p i, (P.cells p).nodal i = u
  ghost : ∀ f ∈ P.ghostFaces, (∀ x, f.sharer.value x = u) ∧ ∀ i, f.sharer.nodal i = u
  flux : ∀ p, ∀ v ∈ (P.cells p).volume, v.flux = F
  /-- Solvers are consistent. -/
  locals : ∀ f ∈ P.localFaces, ∀ q ∈ f.points, ∀ r, q.riemann.upwind u u r = ∑ k, F r k * normal q k
  ghosts : ∀ f ∈ P.ghostFaces, ∀ q ∈ f.points, ∀ r, q.riemann.upwind u u r = ∑ k, F r k * normal q k
  /-- So is what the boundary conditions make of `u`. -/
  bounds : ∀ job ∈ jobs c t, ∀ faces, P.boundary job.1 = some faces → ∀ f ∈ faces, ∀ q ∈ f.points, ∀ r,
    job.2 q u r = ∑ k, F r k * normal q k

/-- The integral of a component of the normal against a test function, over the faces of cell `p` on one boundary. -/
noncomputable def normalBoundary (normal : FacePoint Pt K → Fin 3 → ℝ) (P : Part Pt K n) (p : Fin P.count)
    (φ : FacePoint Pt K → ℝ) (k : Fin 3) (name : String) : ℝ :=
  match P.boundary name with
  | none => 0
  | some faces => (faces.map fun f =>
      if f.holder = p then (f.points.map fun q => q.weight * normal q k * φ q).sum else 0).sum

/-- The quadrature rules satisfy the divergence theorem on cell `p` for basis function `i`, the surface of the cell
being made up of the faces of the part: `∑ w ∂φ = ∑ w φ n` in each direction. -/
def DivergenceTheorem (normal : FacePoint Pt K → Fin 3 → ℝ) (P : Part Pt K n) (c : Conditions Pt K) (t : ℝ)
    (p : Fin P.count) (i : Fin (n + 1)) (φ : FacePoint Pt K → ℝ) : Prop :=
  ∀ k, ((P.cells p).volume.map fun v => v.weight * v.grad k i).sum =
    (P.localFaces.map fun f =>
      (if f.holder = p then (f.points.map fun q => q.weight * normal q k * φ q).sum else 0)
        - (if f.sharer = p then (f.points.map fun q => q.weight * normal q k * φ q).sum else 0)).sum +
    (P.ghostFaces.map fun f =>
      if f.holder = p then (f.points.map fun q => q.weight * normal q k * φ q).sum else 0).sum +
    ((jobs c t).map fun job => normalBoundary normal P p φ k job.1).sum

end MiniCFD.Spec.WeakForm
