import Verif.Model.Residual
import Verif.Model.Lagrange
import Verif.Model.Vincent
import Mathlib.Data.Matrix.Mul
import Mathlib.Data.Fin.VecNotation

/-!
# Residuals of the flux reconstruction schemes

Model of `mini/spatial/fr/general.hpp` (`General`) and `mini/spatial/fr/lobatto.hpp` (`Lobatto`), of
`FindFaceId` and `FindCollinearIndex` of `mini/polynomial/hexahedron.hpp`, for cells which are hexahedra
with `N + 1` points on every line.  Scalars are real.

A node `ijk` is kept as the triple of its indices; `flat` is its position in the block of the cell.  The
caches of the constructors are computed at every use: the constructors fill them in the order of the
identifiers of faces, which is asserted (fr/general.hpp:86).  The assertions with tolerances on normals and
coordinates are left out.
-/

namespace MiniCFD.FR

open MiniCFD.Column MiniCFD.Projection MiniCFD.Residual

/-- A point or vector in space. -/
abbrev Vec := Fin 3 → ℝ

/-- The indices of a solution point. -/
abbrev Node (N : Nat) := Fin (N + 1) × Fin (N + 1) × Fin (N + 1)

/-- `basis.index(i, j, k)`, lagrange.hpp:236-238. -/
def flat {N : Nat} (q : Node N) : Nat := Lagrange.index3 (N + 1) (N + 1) q.1 q.2.1 q.2.2

/-- What does not depend on the cell: the value contained in the data at a point, and
`Riemann::GetFluxMatrix`. -/
structure Physics (D : Type) (K : Nat) where
  value : D → Value K
  fluxMatrix : Value K → Matrix (Fin K) (Fin 3) ℝ

/-- A hexahedral cell with its current coefficients: `lagrange().LocalToGlobal`,
`GetJacobianAssociated(ijk)`, the data at a solution point (`GetValue(ijk)`; for solvers with diffusion also
the gradients and Hessians there) and `cell_to_flux(cell, ijk)`. -/
structure Cell (D : Type) (K N : Nat) where
  map : Vec → Vec
  assoc : Node N → Matrix (Fin 3) (Fin 3) ℝ
  data : Node N → D
  flux : Node N → Matrix (Fin K) (Fin 3) ℝ

/-- A Gaussian point of a face.  `normal` is `face.riemann(q).normal()`, which is only used by the solvers and
by assertions.  `common` is the flux between two cells: `GetFluxUpwind`, for solvers with
diffusion minus the viscous flux of the common gradient (fr/general.hpp:256, 291-293).  `outlet` is
`GetFluxOnSupersonicOutlet`, minus the viscous flux of the inner gradient (fr/general.hpp:385, 402-403). -/
structure FacePoint (D : Type) (K : Nat) extends Residual.FacePoint Vec K where
  normal : Vec
  common : D → D → Value K
  outlet : D → Value K

/-- Faces as in `Residual`, with `face.lagrange().center()`. -/
structure LocalFace (D : Type) (K count : Nat) where
  holder : Fin count
  sharer : Fin count
  center : Vec
  points : List (FacePoint D K)

structure GhostFace (D : Type) (K N count : Nat) where
  holder : Fin count
  sharer : Cell D K N
  center : Vec
  points : List (FacePoint D K)

structure BoundaryFace (D : Type) (K count : Nat) where
  holder : Fin count
  center : Vec
  points : List (FacePoint D K)

/-- A part, see `Residual.Part`. -/
structure Part (D : Type) (K N : Nat) where
  count : Nat
  cells : Fin count → Cell D K N
  inter : Fin count → Bool
  localFaces : List (LocalFace D K count)
  ghostFaces : List (GhostFace D K N count)
  boundary : String → Option (List (BoundaryFace D K count))

variable {D : Type} {K N : Nat}

/-! ### Finding a flux point in a cell -/

/-- `a.norm()`. -/
noncomputable def length (a : Vec) : ℝ := √(a 0 * a 0 + a 1 * a 1 + a 2 * a 2)

open scoped Classical in
/-- `(a - b).norm() < ε`. -/
noncomputable def near (ε : ℝ) (a b : Vec) : Bool := decide (length (fun i => a i - b i) < ε)

/-- Local coordinates of the centres of the six sides, hexahedron.hpp:586-591. -/
def sideCenter : Fin 6 → Vec :=
  ![![0, 0, -1], ![0, -1, 0], ![1, 0, 0], ![0, 1, 0], ![-1, 0, 0], ![0, 0, 1]]

/-- `FindFaceId`, hexahedron.hpp:580-594; `none` where the assertion fails. -/
noncomputable def findFaceId (c : Cell D K N) (center : Vec) : Option (Fin 6) :=
  (List.finRange 6).find? fun s => near 1e-10 (c.map (sideCenter s)) center

/-- Local coordinates of the point with in-side indices `a`, `b`, hexahedron.hpp:710-820. -/
def sidePoint (x : Fin (N + 1) → ℝ) (s : Fin 6) (a b : Fin (N + 1)) : Vec :=
  match s with
  | 0 => ![x a, x b, -1]
  | 1 => ![x a, -1, x b]
  | 2 => ![1, x a, x b]
  | 3 => ![x a, 1, x b]
  | 4 => ![-1, x a, x b]
  | 5 => ![x a, x b, 1]

/-- All pairs of in-side indices in the order of the two loops. -/
def pairs (N : Nat) : List (Fin (N + 1) × Fin (N + 1)) :=
  (List.finRange (N + 1)).flatMap fun a => (List.finRange (N + 1)).map fun b => (a, b)

/-- `FindCollinearIndexByGlobal`, hexahedron.hpp:707-820; `none` if no point is near, where the indices are
beyond the range and the next assertion of the caller fails. -/
noncomputable def findCollinear (x : Fin (N + 1) → ℝ) (c : Cell D K N) (p : Vec) (s : Fin 6) :
    Option (Fin (N + 1) × Fin (N + 1)) :=
  (pairs N).find? fun ab => near 1e-8 (c.map (sidePoint x s ab.1 ab.2)) p

/-- The `l`-th solution point on the line through a flux point, fr/general.hpp:98-195. -/
def lineNode (s : Fin 6) (a b l : Fin (N + 1)) : Node N :=
  match s with
  | 0 => (a, b, l)
  | 1 => (a, l, b)
  | 2 => (l, a, b)
  | 3 => (a, l, b)
  | 4 => (l, a, b)
  | 5 => (a, b, l)

/-- The sides on which the flux point is the last of its line. -/
def right : Fin 6 → Bool := ![false, false, true, true, false, true]

/-- The column of the associated Jacobian. -/
def axis : Fin 6 → Fin 3 := ![2, 1, 0, 1, 0, 2]

/-- `FluxPointCache`, fr/general.hpp:63-67. -/
structure FluxPoint (N : Nat) where
  normal : Vec
  scale : ℝ
  ijk : Node N

/-- The flux point found for a face point, fr/general.hpp:93-196 and fr/lobatto.hpp:88-161. -/
noncomputable def fluxPoint (c : Cell D K N) (s : Fin 6) (a b : Fin (N + 1)) : FluxPoint N :=
  let ijk := lineNode s a b (if right s then Fin.last N else 0)
  let normal : Vec := fun i => c.assoc ijk i (axis s)
  ⟨normal, if right s then length normal else -length normal, ijk⟩

/-- What a face loop needs to know of one cell at one face point: the flux point, and the solution points
to be corrected with the derivatives `g_prime` of the correction function. -/
structure Cache (N : Nat) where
  line : List (ℝ × Node N)
  point : FluxPoint N

/-- `General::CacheCorrectionGradients` at one face point, fr/general.hpp:81-201. -/
noncomputable def generalCache (x : Fin (N + 1) → ℝ) (v : Vincent.Vincent) (c : Cell D K N) (center : Vec)
    (p : Vec) : Option (Cache N) := do
  let s ← findFaceId c center
  let (a, b) ← findCollinear x c p s
  let line := (List.finRange (N + 1)).map fun l =>
    (if right s then Vincent.rightDerivative v (x l) else Vincent.leftDerivative v (x l), lineNode s a b l)
  some ⟨line, fluxPoint c s a b⟩

/-- `Lobatto::CacheCorrectionGradients` at one face point, fr/lobatto.hpp:76-165: only the flux point is
corrected. -/
noncomputable def lobattoCache (x : Fin (N + 1) → ℝ) (v : Vincent.Vincent) (c : Cell D K N) (center : Vec)
    (p : Vec) : Option (Cache N) := do
  let s ← findFaceId c center
  let (a, b) ← findCollinear x c p s
  let f := fluxPoint c s a b
  let g_prime := Vincent.rightDerivative v 1
  some ⟨[(if right s then g_prime else -g_prime, f.ijk)], f⟩

/-! ### Contributions -/

/-- `matrix * vector`. -/
def apply (m : Matrix (Fin K) (Fin 3) ℝ) (v : Vec) : Value K := fun r => ∑ i, m r i * v i

/-- `GetBasisGradients(q).col(k)`, hexahedron.hpp:138-151: products of the derivatives on the lines, which
`GetDerivatives(a, b, c, i, j, k)` takes from tables filled by `GetDerivatives` at the nodes
(lagrange.hpp:79-84, 350-370). -/
noncomputable def basisGradient (x : Fin (N + 1) → ℝ) (q k : Node N) : Vec :=
  let d (o : Nat) (i j : Fin (N + 1)) := Lagrange.lineDerivatives x o (x i) j
  ![d 1 q.1 k.1 * d 0 q.2.1 k.2.1 * d 0 q.2.2 k.2.2,
    d 0 q.1 k.1 * d 1 q.2.1 k.2.1 * d 0 q.2.2 k.2.2,
    d 0 q.1 k.1 * d 0 q.2.1 k.2.1 * d 1 q.2.2 k.2.2]

/-- `GlobalFluxToLocalFlux`, hexahedron.hpp:462-467. -/
noncomputable def localFlux (c : Cell D K N) (q : Node N) : Matrix (Fin K) (Fin 3) ℝ :=
  c.flux q * c.assoc q

/-- All nodes in the order of their positions. -/
def nodes (N : Nat) : List (Node N) :=
  (List.finRange (N + 1)).flatMap fun i => (List.finRange (N + 1)).flatMap fun j =>
    (List.finRange (N + 1)).map fun k => (i, j, k)

/-- `AddFluxDivergence` on cell `p`, fr/general.hpp:232-248. -/
noncomputable def divergence (x : Fin (N + 1) → ℝ) (p : Nat) (c : Cell D K N) : List (Contribution ℝ) :=
  (nodes N).map fun q => minusValue p (flat q) fun r =>
    ((nodes N).map fun k => apply (localFlux c k) (basisGradient x q k) r).sum

noncomputable def divergences (x : Fin (N + 1) → ℝ) (P : Part D K N) : List (Contribution ℝ) :=
  (List.finRange P.count).flatMap fun p => divergence x p.val (P.cells p)

/-- `f * scale - matrix * normal`. -/
noncomputable def jump (f : Value K) (scale : ℝ) (m : Matrix (Fin K) (Fin 3) ℝ) (normal : Vec) : Value K :=
  fun r => f r * scale - apply m normal r

/-- `MinusValue(f * g_prime, data, ijk)` along the line. -/
noncomputable def correct (p : Nat) (h : Cache N) (f : Value K) : List (Contribution ℝ) :=
  h.line.map fun gq => minusValue p (flat gq.2) fun r => f r * gq.1

/-- How a scheme finds the cache: `generalCache` or `lobattoCache`. -/
abbrev Finder (D : Type) (K N : Nat) := Cell D K N → Vec → Vec → Option (Cache N)

/-- `AddFluxOnLocalFaces` on one face, fr/general.hpp:250-267, 303-328 and fr/lobatto.hpp:219-244.  The
matrix `GetFluxMatrix(u)` (minus the viscous flux of the gradient) is `cell_to_flux` at the flux point
(fem.hpp:263-278). -/
noncomputable def onLocalFace (S : Finder D K N) (P : Part D K N) (f : LocalFace D K P.count) :
    Option (List (Contribution ℝ)) :=
  collect (fun q => do
    let h ← S (P.cells f.holder) f.center q.coord
    let s ← S (P.cells f.sharer) f.center q.coord
    let up := q.common ((P.cells f.holder).data h.point.ijk) ((P.cells f.sharer).data s.point.ijk)
    let f_holder := jump up h.point.scale ((P.cells f.holder).flux h.point.ijk) h.point.normal
    let f_sharer := jump up (-s.point.scale) ((P.cells f.sharer).flux s.point.ijk) s.point.normal
    some (correct f.holder h f_holder ++ correct f.sharer s f_sharer)) f.points

/-- `AddFluxOnGhostFaces` on one face, fr/general.hpp:329-350 and fr/lobatto.hpp:245-264. -/
noncomputable def onGhostFace (S : Finder D K N) (P : Part D K N) (f : GhostFace D K N P.count) :
    Option (List (Contribution ℝ)) :=
  collect (fun q => do
    let h ← S (P.cells f.holder) f.center q.coord
    let s ← S f.sharer f.center q.coord
    let up := q.common ((P.cells f.holder).data h.point.ijk) (f.sharer.data s.point.ijk)
    let f_holder := jump up h.point.scale ((P.cells f.holder).flux h.point.ijk) h.point.normal
    some (correct f.holder h f_holder)) f.points

/-- The loops of the `Apply*` methods on one face.  `flux` is the flux at the boundary, `inner` the matrix
which is subtracted. -/
noncomputable def onBoundaryFace (S : Finder D K N) (P : Part D K N) (flux : FacePoint D K → D → Value K)
    (inner : Cell D K N → Node N → Matrix (Fin K) (Fin 3) ℝ) (f : BoundaryFace D K P.count) :
    Option (List (Contribution ℝ)) :=
  collect (fun q => do
    let h ← S (P.cells f.holder) f.center q.coord
    let up := flux q ((P.cells f.holder).data h.point.ijk)
    let f_holder := jump up h.point.scale (inner (P.cells f.holder) h.point.ijk) h.point.normal
    some (correct f.holder h f_holder)) f.points

/-- A boundary to be visited: its name, the flux, and what is subtracted. -/
structure Job (D : Type) (K N : Nat) where
  name : String
  flux : FacePoint D K → D → Value K
  inner : Cell D K N → Node N → Matrix (Fin K) (Fin 3) ℝ

/-- The boundaries in the order of `AddFluxOnBoundaries` (fem.hpp:185-226), with what the `Apply*` methods
compute (fr/general.hpp:351-548, fr/lobatto.hpp:265-397).  Only `ApplySupersonicOutlet` subtracts the whole
flux; the others subtract `Riemann::GetFluxMatrix(u_holder)`, which has no viscous part. -/
def jobs (ph : Physics D K) (c : Conditions Vec K) (t : ℝ) : List (Job D K N) :=
  let conv : Cell D K N → Node N → Matrix (Fin K) (Fin 3) ℝ :=
    fun cell ijk => ph.fluxMatrix (ph.value (cell.data ijk))
  (c.solidWall.map fun name => ⟨name, fun q d => q.riemann.solidWall (ph.value d), conv⟩) ++
  (c.supersonicInlet.map fun nf =>
    ⟨nf.1, fun q _ => q.riemann.supersonicInlet (nf.2 q.coord t), conv⟩) ++
  (c.supersonicOutlet.map fun name => ⟨name, fun q d => q.outlet d, fun cell ijk => cell.flux ijk⟩) ++
  (c.subsonicInlet.map fun nf =>
    ⟨nf.1, fun q d => q.riemann.subsonicInlet (ph.value d) (nf.2 q.coord t), conv⟩) ++
  (c.subsonicOutlet.map fun nf =>
    ⟨nf.1, fun q d => q.riemann.subsonicOutlet (ph.value d) (nf.2 q.coord t), conv⟩) ++
  (c.smart.map fun nf => ⟨nf.1, fun q d => q.riemann.smart (ph.value d) (nf.2 q.coord t), conv⟩)

noncomputable def onBoundaries (ph : Physics D K) (S : Finder D K N) (P : Part D K N) (c : Conditions Vec K)
    (t : ℝ) : Option (List (Contribution ℝ)) :=
  collect (fun job => do
    let faces ← P.boundary job.name
    collect (onBoundaryFace S P job.flux job.inner) faces) (jobs ph c t)

/-- All additions made by `GetResidualColumn`, fem.hpp:173-183, in order. -/
noncomputable def contributions (x : Fin (N + 1) → ℝ) (ph : Physics D K) (S : Finder D K N) (P : Part D K N)
    (c : Conditions Vec K) (t : ℝ) : Option (List (Contribution ℝ)) := do
  let a ← collect (onLocalFace S P) P.localFaces
  let b ← onBoundaries ph S P c t
  let g ← collect (onGhostFace S P) P.ghostFaces
  some (divergences x P ++ a ++ b ++ g)

/-- Number of solution points of a cell. -/
def cellQ (N : Nat) : Nat := (N + 1) * (N + 1) * (N + 1)

/-- `CountFields()` of every cell. -/
def sizes (P : Part D K N) : List Nat := List.replicate P.count (cellQ N * K)

/-- `GetResidualColumn`, fem.hpp:173-183. -/
noncomputable def residual (x : Fin (N + 1) → ℝ) (ph : Physics D K) (S : Finder D K N) (P : Part D K N)
    (c : Conditions Vec K) (t : ℝ) : Option (Numbering × List ℝ) := do
  let (ids, offs) ← addLocalCellId (List.ofFn P.inter) (sizes P)
  let cs ← contributions x ph S P c t
  let col ← accumulate ⟨List.ofFn P.inter, ids, offs⟩ cs (List.replicate (sizes P).sum 0)
  some (⟨List.ofFn P.inter, ids, offs⟩, col)

/-- `fr::General` with parameter `c_next`, fr/general.hpp:205. -/
noncomputable def generalResidual (x : Fin (N + 1) → ℝ) (c_next : ℝ) (ph : Physics D K) (P : Part D K N)
    (c : Conditions Vec K) (t : ℝ) : Option (Numbering × List ℝ) :=
  residual x ph (generalCache x (Vincent.mk' N c_next)) P c t

/-- `fr::Lobatto`, fr/lobatto.hpp:193-194. -/
noncomputable def lobattoResidual (x : Fin (N + 1) → ℝ) (ph : Physics D K) (P : Part D K N)
    (c : Conditions Vec K) (t : ℝ) : Option (Numbering × List ℝ) :=
  residual x ph (lobattoCache x (Vincent.mk' N (Vincent.huynhLumpingLobatto N))) P c t

/-- Component `r` at node `q` of what the column holds for cell `p`. -/
def entry (res : Numbering × List ℝ) (p : Nat) (r : Fin K) (q : Node N) : Option ℝ := do
  let off ← res.1.offset p
  res.2[off + (flat q * K + r)]?

end MiniCFD.FR
