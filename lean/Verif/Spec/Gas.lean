import Verif.Model.Gas
import Verif.Model.Exact
import Verif.Spec.Positive

/-!
# Gases in the cells of a mesh

What is asked of a mesh, of the time step and of the boundary conditions for density and pressure to remain positive, in
terms of the functions which the columns stand for.
-/

namespace MiniCFD.Spec.Gas

open MiniCFD.Gas MiniCFD.Residual MiniCFD.Projection MiniCFD.Ortho MiniCFD.Euler MiniCFD.Spec.Euler MiniCFD.Spec.Positive

variable {Pt : Type}

/-- The state of the gas in a cell. -/
noncomputable def state (m : Mesh Pt 0) (p : Fin m.count) (w : Coeff 5 0) (x : Pt) : Tup 2 :=
  tup fun r => ∑ i, w r i * basisValues (m.basis p) x i

/-- Density and pressure are positive everywhere. -/
def Positive (m : Mesh Pt 0) (γ : ℝ) (u : Fin m.count → Coeff 5 0) : Prop := ∀ p x, Admissible γ (state m p (u p) x)

/-- Basis functions are constant: `κ p` in cell `p`. -/
def Constant (m : Mesh Pt 0) (κ : Fin m.count → ℝ) : Prop := ∀ p x i, basisValues (m.basis p) x i = κ p

/-- The volume of a cell, by its own rule. -/
noncomputable def volume (m : Mesh Pt 0) (p : Fin m.count) : ℝ := integrate (fun _ => 1) (m.basis p).rule

/-- `∑ w g` over the points of a face. -/
noncomputable def face (points : List (Site Pt)) (g : Site Pt → ℝ) : ℝ := (points.map fun q => q.weight * g q).sum

/-- The sum over the faces of a boundary, `g` being told the holder. -/
noncomputable def rim (m : Mesh Pt 0) (name : String) (g : Fin m.count → Site Pt → ℝ) : ℝ :=
  match m.boundary name with
  | none => 0
  | some faces => (faces.map fun f => face f.2 (g f.1)).sum

/-- The boundaries with a condition. -/
def names (c : Conditions Pt 5) : List String :=
  c.solidWall ++ c.supersonicInlet.map Prod.fst ++ c.supersonicOutlet

/-- The integral of `g` over the surface of cell `p`; `g` is to be odd in the normal, which points out of the holder. -/
noncomputable def surface (m : Mesh Pt 0) (c : Conditions Pt 5) (p : Fin m.count) (g : Site Pt → ℝ) : ℝ :=
  (m.faces.map fun f => (if f.1 = p then face f.2.2 g else 0) - (if f.2.1 = p then face f.2.2 g else 0)).sum +
    ((names c).map fun name => rim m name fun h q => if h = p then g q else 0).sum

/-- The sum over all points around a cell. -/
noncomputable def around (m : Mesh Pt 0) (c : Conditions Pt 5) (p : Fin m.count) (g : Site Pt → ℝ) : ℝ :=
  (m.faces.map fun f => (if f.1 = p then face f.2.2 g else 0) + (if f.2.1 = p then face f.2.2 g else 0)).sum +
    ((names c).map fun name => rim m name fun h q => if h = p then g q else 0).sum

/-- Something is true of all points on a boundary, the holder being told. -/
def OnRim (m : Mesh Pt 0) (name : String) (g : Fin m.count → Site Pt → Prop) : Prop :=
  ∀ faces, m.boundary name = some faces → ∀ f ∈ faces, ∀ q ∈ f.2, g f.1 q

/-- What is asked of a mesh and the boundary conditions on it: the bases are normalised constants without gradients, the
surfaces of cells are closed, weights are not negative, frames are orthonormal, the boundaries named in conditions exist.
-/
structure Regular (m : Mesh Pt 0) (c : Conditions Pt 5) (κ : Fin m.count → ℝ) : Prop where
  constant : Constant m κ
  norm : ∀ p, integrate (fun x => basisValues (m.basis p) x 0 * basisValues (m.basis p) x 0) (m.basis p).rule = 1
  flat : ∀ p v x k, m.gradValue p v x k = 0
  closed : ∀ p k, surface m c p (fun q => q.frame 0 k) = 0
  weights : ∀ f ∈ m.faces, ∀ q ∈ f.2.2, 0 ≤ q.weight
  rims : ∀ name, OnRim m name fun _ q => 0 ≤ q.weight
  frames : ∀ f ∈ m.faces, ∀ q ∈ f.2.2, Orthonormal q.frame
  edges : ∀ name, OnRim m name fun _ q => Orthonormal q.frame
  known : ∀ name ∈ names c, m.boundary name ≠ none

/-- Only walls and supersonic inlets and outlets are used. -/
structure Supported (c : Conditions Pt 5) : Prop where
  subsonicInlet : c.subsonicInlet = []
  subsonicOutlet : c.subsonicOutlet = []
  smart : c.smart = []

/-- No vacuum forms between two gases. -/
def Touch (γ : ℝ) (nu : Fin 3 → ℝ) (l r : Tup 2) : Prop :=
  velAlong nu r - velAlong nu l < 2 / (γ - 1) * (sound γ l + sound γ r)

/-- The solvers of all faces are exact ones: what they return for gases that touch is what some call returns. -/
def Exactly (m : Mesh Pt 0) (γ : ℝ) : Prop :=
  ∀ f ∈ m.faces, ∀ q ∈ f.2.2, ∀ l r, Admissible γ l → Admissible γ r → Touch γ (q.frame 0) l r →
    ∃ fuel s u, Exact.rotatedCall fuel γ q.frame s l r = some (q.solver l r, u)

/-- `α` is, on boundaries, at least the speed of what passes there in the state `u`: at walls `γ` times that of the gas
towards or away from it; at inlets that of the gas and of sound in the cell. -/
structure Edges (m : Mesh Pt 0) (γ : ℝ) (c : Conditions Pt 5) (u : Fin m.count → Coeff 5 0) (α : Site Pt → ℝ) : Prop where
  wall : ∀ name ∈ c.solidWall, OnRim m name fun h q => γ * |velAlong (q.frame 0) (state m h (u h) q.coord)| ≤ α q
  inlet : ∀ nf ∈ c.supersonicInlet, OnRim m nf.1 fun h q =>
    |velAlong (q.frame 0) (state m h (u h) q.coord)| + sound γ (state m h (u h) q.coord) ≤ α q
  outlet : ∀ name ∈ c.supersonicOutlet, OnRim m name fun _ q => 0 ≤ α q

/-- The same at faces, for exact solvers: gases have to touch, and `α` is at least the speed of the gas and the acoustic
waves on both sides. -/
structure Bounds (m : Mesh Pt 0) (γ : ℝ) (c : Conditions Pt 5) (u : Fin m.count → Coeff 5 0) (α : Site Pt → ℝ) : Prop where
  edges : Edges m γ c u α
  touch : ∀ f ∈ m.faces, ∀ q ∈ f.2.2,
    Touch γ (q.frame 0) (state m f.1 (u f.1) q.coord) (state m f.2.1 (u f.2.1) q.coord)
  left : ∀ f ∈ m.faces, ∀ q ∈ f.2.2,
    reach γ (impact γ (q.frame 0) (state m f.1 (u f.1) q.coord) (state m f.2.1 (u f.2.1) q.coord)) (q.frame 0)
      (state m f.1 (u f.1) q.coord) ≤ α q
  right : ∀ f ∈ m.faces, ∀ q ∈ f.2.2,
    reach γ (impact γ (q.frame 0) (state m f.1 (u f.1) q.coord) (state m f.2.1 (u f.2.1) q.coord)) (q.frame 0)
      (state m f.2.1 (u f.2.1) q.coord) ≤ α q

/-- The same for HLLC, with the pressure it estimates. -/
structure Waves (m : Mesh Pt 0) (γ : ℝ) (c : Conditions Pt 5) (u : Fin m.count → Coeff 5 0) (α : Site Pt → ℝ) : Prop where
  edges : Edges m γ c u α
  left : ∀ f ∈ m.faces, ∀ q ∈ f.2.2,
    reach γ (pvrs γ (q.frame 0) (state m f.1 (u f.1) q.coord) (state m f.2.1 (u f.2.1) q.coord)) (q.frame 0)
      (state m f.1 (u f.1) q.coord) ≤ α q
  right : ∀ f ∈ m.faces, ∀ q ∈ f.2.2,
    reach γ (pvrs γ (q.frame 0) (state m f.1 (u f.1) q.coord) (state m f.2.1 (u f.2.1) q.coord)) (q.frame 0)
      (state m f.2.1 (u f.2.1) q.coord) ≤ α q

/-- The solvers of all faces are HLLC. -/
def Hllc (m : Mesh Pt 0) (γ : ℝ) : Prop := ∀ f ∈ m.faces, ∀ q ∈ f.2.2, q.solver = upwind γ (hllc γ) q.frame

/-- What is prescribed at inlets is a gas that comes in at least as fast as sound. -/
def Inflow (m : Mesh Pt 0) (γ : ℝ) (c : Conditions Pt 5) (t : ℝ) : Prop :=
  ∀ nf ∈ c.supersonicInlet, OnRim m nf.1 fun _ q =>
    Admissible γ (tup (nf.2 q.coord t)) ∧ velAlong (q.frame 0) (tup (nf.2 q.coord t)) ≤ -sound γ (tup (nf.2 q.coord t))

/-- In a step nothing gets through a cell. -/
def Courant (m : Mesh Pt 0) (c : Conditions Pt 5) (dt : ℝ) (α : Site Pt → ℝ) : Prop :=
  ∀ p, dt * around m c p α < volume m p

/-- The step `dt` fits the state `u` at time `t`. -/
def Fits (m : Mesh Pt 0) (γ : ℝ) (c : Conditions Pt 5) (dt t : ℝ) (u : Fin m.count → Coeff 5 0) : Prop :=
  Inflow m γ c t ∧ ∃ α, Bounds m γ c u α ∧ Courant m c dt α

/-- The same for HLLC. -/
def FitsHllc (m : Mesh Pt 0) (γ : ℝ) (c : Conditions Pt 5) (dt t : ℝ) (u : Fin m.count → Coeff 5 0) : Prop :=
  Inflow m γ c t ∧ ∃ α, Waves m γ c u α ∧ Courant m c dt α

end MiniCFD.Spec.Gas
