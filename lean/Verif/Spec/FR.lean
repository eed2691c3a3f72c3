import Verif.Model.FR
import Verif.Spec.Gauss
import Mathlib.Algebra.BigOperators.Fin

/-!
# Conservation for flux reconstruction

The six sides of a hexahedron are described by an axis and an end, independently of how the code numbers
them; flux points are the nodes on a side.
-/

namespace MiniCFD.Spec.FR

open MiniCFD.FR MiniCFD.Projection Polynomial MeasureTheory intervalIntegral

variable {D : Type} {K N : Nat}

/-- A quadrature rule on the line with `N + 1` points which contains the ends and is exact to degree
`2 N - 1`: a Gauss-Lobatto rule. -/
structure LineRule (x w : Fin (N + 1) → ℝ) : Prop where
  distinct : Function.Injective x
  first : x 0 = -1
  last : x (Fin.last N) = 1
  positive : ∀ i, 0 < w i
  exact : ∀ p : ℝ[X], p.natDegree ≤ 2 * N - 1 → ∑ i, w i * p.eval (x i) = ∫ t in (-1)..1, p.eval t

/-- Index of a node along an axis. -/
def at_ (q : Node N) (d : Fin 3) : Fin (N + 1) := ![q.1, q.2.1, q.2.2] d

/-- Local coordinates of a node. -/
def loc (x : Fin (N + 1) → ℝ) (q : Node N) : Vec := fun d => x (at_ q d)

/-- Position of a node of a cell. -/
def pos (x : Fin (N + 1) → ℝ) (c : Cell D K N) (q : Node N) : Vec := c.map (loc x q)

/-- Weight of a node in the integral over the reference cube. -/
def mass (w : Fin (N + 1) → ℝ) (q : Node N) : ℝ := w q.1 * w q.2.1 * w q.2.2

/-- A side: where the coordinate along the axis is `+1` (`true`) or `-1` (`false`). -/
abbrev Side := Fin 3 × Bool

def allSides : List Side := [(0, false), (0, true), (1, false), (1, true), (2, false), (2, true)]

/-- `+1` or `-1`. -/
def sign (s : Side) : ℝ := if s.2 then 1 else -1

/-- Local coordinates of its centre. -/
def sideMid (s : Side) : Vec := fun d => if d = s.1 then sign s else 0

/-- The nodes on a side. -/
def sideNodes (s : Side) : Finset (Node N) :=
  Finset.univ.filter fun q => at_ q s.1 = if s.2 then Fin.last N else 0

/-- Weight of a node in the integral over a side of the reference cube. -/
def sideMass (w : Fin (N + 1) → ℝ) (d : Fin 3) (q : Node N) : ℝ :=
  ![w q.2.1 * w q.2.2, w q.1 * w q.2.2, w q.1 * w q.2.1] d

/-- The nodes of a cell, and the centres of its sides, are farther apart than the tolerances of the
searches. -/
structure Resolved (x : Fin (N + 1) → ℝ) (c : Cell D K N) : Prop where
  nodes : ∀ q q', length (fun i => pos x c q i - pos x c q' i) < 1e-8 → q = q'
  centers : ∀ s s', length (fun i => c.map (sideMid s) i - c.map (sideMid s') i) < 1e-10 → s = s'

/-- A face with the given centre and points is side `s` of the cell: its points are the nodes there, its
normals are unit vectors, and at every point the area vector of the side, which points out of the cell, is
`out` times weight times normal. -/
structure IsSide (x w : Fin (N + 1) → ℝ) (c : Cell D K N) (s : Side) (out : ℝ) (center : Vec)
    (points : List (FacePoint D K)) : Prop where
  mid : center = c.map (sideMid s)
  onNodes : (Multiset.ofList (points.map fun q => q.coord)) = (sideNodes s).val.map (pos x c)
  unit : ∀ q ∈ points, length q.normal = 1
  weight : ∀ q ∈ points, 0 ≤ q.weight
  area : ∀ q ∈ points, ∀ ν ∈ sideNodes s, q.coord = pos x c ν → ∀ i,
    sign s * (sideMass w s.1 ν * c.assoc ν i s.1) = out * (q.weight * q.normal i)

/-- Which side of its cells every face is. -/
structure Sides (P : Part D K N) where
  holder : LocalFace D K P.count → Side
  sharer : LocalFace D K P.count → Side
  ghost : GhostFace D K N P.count → Side
  ghostSharer : GhostFace D K N P.count → Side
  boundary : BoundaryFace D K P.count → Side

/-- The names of the boundaries which have been given a condition. -/
def names (c : Residual.Conditions Vec K) : List String :=
  c.solidWall ++ c.supersonicOutlet ++ c.supersonicInlet.map Prod.fst ++ c.subsonicInlet.map Prod.fst ++
    c.subsonicOutlet.map Prod.fst ++ c.smart.map Prod.fst

/-- The boundary faces which are visited. -/
def registered (P : Part D K N) (c : Residual.Conditions Vec K) : List (BoundaryFace D K P.count) :=
  (names c).flatMap fun name => (P.boundary name).getD []

/-- A conforming mesh of resolved cells whose every side is visited exactly once: it is a local face, a ghost
face, or a face of a boundary with exactly one condition. -/
structure Conforming (x w : Fin (N + 1) → ℝ) (P : Part D K N) (c : Residual.Conditions Vec K) (σ : Sides P) :
    Prop where
  known : ∀ name ∈ names c, (P.boundary name).isSome
  resolved : ∀ p, Resolved x (P.cells p)
  ghostResolved : ∀ f ∈ P.ghostFaces, Resolved x f.sharer
  holder : ∀ f ∈ P.localFaces, IsSide x w (P.cells f.holder) (σ.holder f) 1 f.center f.points
  sharer : ∀ f ∈ P.localFaces, IsSide x w (P.cells f.sharer) (σ.sharer f) (-1) f.center f.points
  ghost : ∀ f ∈ P.ghostFaces, IsSide x w (P.cells f.holder) (σ.ghost f) 1 f.center f.points
  ghostSharer : ∀ f ∈ P.ghostFaces, IsSide x w f.sharer (σ.ghostSharer f) (-1) f.center f.points
  boundary : ∀ f ∈ registered P c, IsSide x w (P.cells f.holder) (σ.boundary f) 1 f.center f.points
  covered : ∀ p, ((P.localFaces.filter fun f => f.holder = p).map σ.holder ++
    (P.localFaces.filter fun f => f.sharer = p).map σ.sharer ++
    (P.ghostFaces.filter fun f => f.holder = p).map σ.ghost ++
    ((registered P c).filter fun f => f.holder = p).map σ.boundary).Perm allSides

/-- The data and the whole flux of a cell at a point of space. -/
structure Trace (D : Type) (K N : Nat) where
  data : Cell D K N → Vec → D
  flux : Cell D K N → Vec → Matrix (Fin K) (Fin 3) ℝ

/-- At the nodes these are the data and the flux of the nodes. -/
def IsTrace (x : Fin (N + 1) → ℝ) (T : Trace D K N) (c : Cell D K N) : Prop :=
  ∀ q, T.data c (pos x c q) = c.data q ∧ T.flux c (pos x c q) = c.flux q

/-- The entry of a residual, zero where there is none. -/
noncomputable def entryAt (res : Column.Numbering × List ℝ) (p : Nat) (r : Fin K) (q : Node N) : ℝ :=
  (entry res p r q).getD 0

/-- The integral of the residual over a part.  The unknowns are values times the determinant of the Jacobian,
so that the weights are those of the reference cube. -/
noncomputable def integral (w : Fin (N + 1) → ℝ) (P : Part D K N) (res : Column.Numbering × List ℝ)
    (r : Fin K) : ℝ := ∑ p : Fin P.count, ∑ q : Node N, mass w q * entryAt res p.val r q

/-- The flux through the boundary of the given name, where `B` is the flux per area at a point. -/
noncomputable def through (P : Part D K N) (name : String) (B : FacePoint D K → Cell D K N → ℝ) : ℝ :=
  match P.boundary name with
  | none => 0
  | some faces => (faces.map fun f => (f.points.map fun q => q.weight * B q (P.cells f.holder)).sum).sum

/-- The viscous flux (whole flux minus convective flux) along the normal. -/
def viscous (ph : Physics D K) (T : Trace D K N) (q : FacePoint D K) (c : Cell D K N) (r : Fin K) : ℝ :=
  ∑ i, (T.flux c q.coord r i - ph.fluxMatrix (ph.value (T.data c q.coord)) r i) * q.normal i

/-- The flux through all boundaries with a condition: the flux of the condition, and the inner viscous flux
except where the outlet already contains it. -/
noncomputable def outflow (ph : Physics D K) (T : Trace D K N) (P : Part D K N)
    (c : Residual.Conditions Vec K) (t : ℝ) (r : Fin K) : ℝ :=
  let u (q : FacePoint D K) (cell : Cell D K N) : Value K := ph.value (T.data cell q.coord)
  (c.solidWall.map fun name => through P name fun q cell =>
    q.riemann.solidWall (u q cell) r + viscous ph T q cell r).sum +
  (c.supersonicOutlet.map fun name => through P name fun q cell => q.outlet (T.data cell q.coord) r).sum +
  (c.supersonicInlet.map fun nf => through P nf.1 fun q cell =>
    q.riemann.supersonicInlet (nf.2 q.coord t) r + viscous ph T q cell r).sum +
  (c.subsonicInlet.map fun nf => through P nf.1 fun q cell =>
    q.riemann.subsonicInlet (u q cell) (nf.2 q.coord t) r + viscous ph T q cell r).sum +
  (c.subsonicOutlet.map fun nf => through P nf.1 fun q cell =>
    q.riemann.subsonicOutlet (u q cell) (nf.2 q.coord t) r + viscous ph T q cell r).sum +
  (c.smart.map fun nf => through P nf.1 fun q cell =>
    q.riemann.smart (u q cell) (nf.2 q.coord t) r + viscous ph T q cell r).sum

/-- One side of an interface between two parts. -/
structure Interface (D : Type) (K : Nat) where
  points : List (Vec × ℝ × (D → D → Value K))
  inner : Vec → D
  outer : Vec → D

/-- The flux out of it. -/
noncomputable def Interface.flux (s : Interface D K) (r : Fin K) : ℝ :=
  (s.points.map fun q => q.2.1 * q.2.2 (s.inner q.1) (s.outer q.1) r).sum

/-- The interfaces of a part. -/
def interfaces (T : Trace D K N) (P : Part D K N) : List (Interface D K) :=
  P.ghostFaces.map fun f =>
    ⟨f.points.map fun q => (q.coord, q.weight, q.common), T.data (P.cells f.holder), T.data f.sharer⟩

/-- Two sides of the same interface: the same points with the same weights in any order, copies that agree
with the originals, and common fluxes which are the reverse of each other. -/
def Mirror (a b : Interface D K) : Prop :=
  ∃ l, b.points.Perm l ∧ List.Forall₂ (fun p q => q.1 = p.1 ∧ q.2.1 = p.2.1 ∧
    b.inner p.1 = a.outer p.1 ∧ b.outer p.1 = a.inner p.1 ∧
    ∀ r, q.2.2 (a.outer p.1) (a.inner p.1) r = -p.2.2 (a.inner p.1) (a.outer p.1) r) a.points l

/-- All interfaces can be paired. -/
def Paired (l : List (Interface D K)) : Prop :=
  ∃ pairs : List (Interface D K × Interface D K),
    l.Perm (pairs.flatMap fun ab => [ab.1, ab.2]) ∧ ∀ ab ∈ pairs, Mirror ab.1 ab.2

/-- A rank: its part, its conditions and the residual. -/
structure Run (D : Type) (K N : Nat) where
  part : Part D K N
  cond : Residual.Conditions Vec K
  res : Column.Numbering × List ℝ

noncomputable def total (w : Fin (N + 1) → ℝ) (runs : List (Run D K N)) (r : Fin K) : ℝ :=
  (runs.map fun u => integral w u.part u.res r).sum

noncomputable def totalOutflow (ph : Physics D K) (T : Trace D K N) (runs : List (Run D K N)) (t : ℝ)
    (r : Fin K) : ℝ := (runs.map fun u => outflow ph T u.part u.cond t r).sum

/-- The copies are up to date and all interfaces between parts have two sides. -/
def Closed (T : Trace D K N) (runs : List (Run D K N)) : Prop :=
  Paired (runs.flatMap fun u => interfaces T u.part)

end MiniCFD.Spec.FR
