import Verif.Model.Residual
import Mathlib.Data.List.Forall2

/-!
# What conservation means

Independent of how residuals are assembled: fluxes through the boundary and through the interfaces between
parts, as sums over Gaussian points.
-/

namespace MiniCFD.Spec.Residual

open MiniCFD.Residual MiniCFD.Projection

variable {Pt : Type} {K n : Nat}

/-- The entry of a residual, zero where there is none. -/
noncomputable def coeffAt (res : Column.Numbering × List ℝ) (p : Nat) (r : Fin K) (i : Fin (n + 1)) : ℝ :=
  (entry res p r i).getD 0

/-- Component `r` of the sum over all cells of `∑ i, m p i * R p r i`: with `m p i` the integral of basis
function `i` over cell `p` this is the integral of the residual over the part. -/
noncomputable def integral (P : Part Pt K n) (m : Fin P.count → Fin (n + 1) → ℝ)
    (res : Column.Numbering × List ℝ) (r : Fin K) : ℝ :=
  ∑ p, ∑ i, m p i * coeffAt res p.val r i

/-- The flux through the boundary of the given name, `T` being the trace of a cell at a point. -/
noncomputable def through (T : Cell Pt K n → Pt → Value K) (P : Part Pt K n) (name : String)
    (flux : FacePoint Pt K → Value K → Value K) (r : Fin K) : ℝ :=
  match P.boundary name with
  | none => 0
  | some faces => (faces.map fun f => (f.points.map fun q =>
      q.weight * flux q (T (P.cells f.holder) q.coord) r).sum).sum

/-- The flux through all boundaries with a registered condition. -/
noncomputable def outflow (T : Cell Pt K n → Pt → Value K) (P : Part Pt K n) (c : Conditions Pt K) (t : ℝ)
    (r : Fin K) : ℝ :=
  (c.solidWall.map fun name => through T P name (fun q u => q.riemann.solidWall u) r).sum +
  (c.supersonicOutlet.map fun name => through T P name (fun q u => q.riemann.supersonicOutlet u) r).sum +
  (c.supersonicInlet.map fun nf =>
    through T P nf.1 (fun q _ => q.riemann.supersonicInlet (nf.2 q.coord t)) r).sum +
  (c.subsonicInlet.map fun nf =>
    through T P nf.1 (fun q u => q.riemann.subsonicInlet u (nf.2 q.coord t)) r).sum +
  (c.subsonicOutlet.map fun nf =>
    through T P nf.1 (fun q u => q.riemann.subsonicOutlet u (nf.2 q.coord t)) r).sum +
  (c.smart.map fun nf => through T P nf.1 (fun q u => q.riemann.smart u (nf.2 q.coord t)) r).sum

/-- One side of an interface between two parts: points, weights and solvers, the trace of the cell on this
side and that of the copy of the cell on the other side. -/
structure Side (Pt : Type) (K : Nat) where
  points : List (Pt × ℝ × (Value K → Value K → Value K))
  inner : Pt → Value K
  outer : Pt → Value K

/-- The flux out of a side. -/
noncomputable def Side.flux (s : Side Pt K) (r : Fin K) : ℝ :=
  (s.points.map fun q => q.2.1 * q.2.2 (s.inner q.1) (s.outer q.1) r).sum

/-- The sides of a part. -/
def sides (T : Cell Pt K n → Pt → Value K) (P : Part Pt K n) : List (Side Pt K) :=
  P.ghostFaces.map fun f =>
    ⟨f.points.map fun q => (q.coord, q.weight, q.riemann.upwind), T (P.cells f.holder), T f.sharer⟩

/-- Two sides of the same interface: the same points with the same weights in any order, copies that agree
with the originals, and solvers which are the reverse of each other on the two states at the point. -/
def Mirror (a b : Side Pt K) : Prop :=
  ∃ l, b.points.Perm l ∧ List.Forall₂ (fun p q => q.1 = p.1 ∧ q.2.1 = p.2.1 ∧
    b.inner p.1 = a.outer p.1 ∧ b.outer p.1 = a.inner p.1 ∧
    ∀ r, q.2.2 (a.outer p.1) (a.inner p.1) r = -p.2.2 (a.inner p.1) (a.outer p.1) r) a.points l

/-- All sides can be paired. -/
def Paired (l : List (Side Pt K)) : Prop :=
  ∃ pairs : List (Side Pt K × Side Pt K),
    l.Perm (pairs.flatMap fun ab => [ab.1, ab.2]) ∧ ∀ ab ∈ pairs, Mirror ab.1 ab.2

/-- A rank: its part, its conditions, the weights of the integral and the residual. -/
structure Run (Pt : Type) (K n : Nat) where
  part : Part Pt K n
  cond : Conditions Pt K
  m : Fin part.count → Fin (n + 1) → ℝ
  res : Column.Numbering × List ℝ

/-- The integral of the residual over all parts. -/
noncomputable def total (runs : List (Run Pt K n)) (r : Fin K) : ℝ :=
  (runs.map fun u => integral u.part u.m u.res r).sum

/-- The flux through the physical boundary of all parts. -/
noncomputable def totalOutflow (T : Cell Pt K n → Pt → Value K) (runs : List (Run Pt K n)) (t : ℝ)
    (r : Fin K) : ℝ := (runs.map fun u => outflow T u.part u.cond t r).sum

/-- The copies are up to date and all interfaces between parts have two sides. -/
def Closed (T : Cell Pt K n → Pt → Value K) (runs : List (Run Pt K n)) : Prop :=
  Paired (runs.flatMap fun u => sides T u.part)

/-- The constant one is `∑ i, m p i * (basis function i)`, with vanishing gradient. -/
structure HasUnit (P : Part Pt K n) (m : Fin P.count → Fin (n + 1) → ℝ) : Prop where
  one : ∀ p x, ∑ i, m p i * (P.cells p).basis x i = 1
  grad : ∀ p, ∀ v ∈ (P.cells p).volume, ∀ k, ∑ i, m p i * v.grad k i = 0

/-- A cell whose basis is cardinal at its nodes (C33), and whose coefficients are the values there. -/
structure Nodal (c : Cell Pt K n) : Prop where
  cardinal : ∀ i j, c.basis (c.nodes i) j = if j = i then 1 else 0
  value : ∀ x r, c.value x r = ∑ j, c.nodal j r * c.basis x j

/-- The point is near a node of the cell, and a node which is near the point is the point. -/
def OnNode (near : Pt → Pt → Bool) (c : Cell Pt K n) (x : Pt) : Prop :=
  (∃ h, near x (c.nodes h) = true) ∧ ∀ h, near x (c.nodes h) = true → c.nodes h = x

/-- All face points of a part are on nodes of the cells they belong to. -/
structure FacesOnNodes (near : Pt → Pt → Bool) (P : Part Pt K n) : Prop where
  holder : ∀ f ∈ P.localFaces, ∀ q ∈ f.points, OnNode near (P.cells f.holder) q.coord
  sharer : ∀ f ∈ P.localFaces, ∀ q ∈ f.points, OnNode near (P.cells f.sharer) q.coord
  ghost : ∀ f ∈ P.ghostFaces, ∀ q ∈ f.points, OnNode near (P.cells f.holder) q.coord ∧
    Nodal f.sharer ∧ OnNode near f.sharer q.coord
  boundary : ∀ name faces, P.boundary name = some faces → ∀ f ∈ faces, ∀ q ∈ f.points,
    OnNode near (P.cells f.holder) q.coord

end MiniCFD.Spec.Residual
