import Verif.Spec.Turn

/-!
# A density wave carried by a gas of uniform velocity and pressure

If velocity `v` and pressure `P` are uniform, the Euler equations carry the density along unchanged: it is `ρ (x - t v)`
if it was `ρ (x)`.  If `ρ` is linear along `v`, that is `ρ (x) - t s (x)`, where `s` is the derivative of `ρ` along `v`
and does not change along `v`.
-/

namespace MiniCFD.Spec.Carry

open MiniCFD.Gas MiniCFD.Residual MiniCFD.Projection MiniCFD.Ortho MiniCFD.Euler MiniCFD.Spec.Euler MiniCFD.Spec.Turn

variable {Pt : Type} {n : Nat}

/-- The gas with density `ρ`, velocity `v` and pressure `P`. -/
noncomputable def carried (γ : ℝ) (v : Fin 3 → ℝ) (P ρ : ℝ) : Tup 2 :=
  ⟨ρ, fun j => ρ * v j, P / (γ - 1) + ρ * (v 0 ^ 2 + v 1 ^ 2 + v 2 ^ 2) / 2⟩

/-- A function of the space of a cell, by its coefficients. -/
noncomputable def profile (m : Mesh Pt n) (p : Fin m.count) (w : Fin (n + 1) → ℝ) (x : Pt) : ℝ :=
  ∑ i, w i * basisValues (m.basis p) x i

/-- Its derivative in direction `k`. -/
noncomputable def slope (m : Mesh Pt n) (p : Fin m.count) (w : Fin (n + 1) → ℝ) (x : Pt) (k : Fin 3) : ℝ :=
  ∑ i, w i * gradient m p x i k

/-- `f` is in the spaces of all cells, and `g` is its derivative along `v` at the Gaussian points. -/
def Derivative (m : Mesh Pt n) (v : Fin 3 → ℝ) (f g : Pt → ℝ) : Prop :=
  ∃ w : Fin m.count → Fin (n + 1) → ℝ, (∀ p x, profile m p (w p) x = f x) ∧
    ∀ p, ∀ xw ∈ (m.basis p).rule, ∑ k, v k * slope m p (w p) xw.1 k = g xw.1

/-- `∑ w g` over the points of a face. -/
noncomputable def face (points : List (Site Pt)) (g : Site Pt → ℝ) : ℝ := (points.map fun q => q.weight * g q).sum

/-- The boundaries with a condition. -/
def names (c : Conditions Pt 5) : List String :=
  c.solidWall ++ c.supersonicInlet.map Prod.fst ++ c.supersonicOutlet ++ c.subsonicInlet.map Prod.fst ++
    c.subsonicOutlet.map Prod.fst ++ c.smart.map Prod.fst

/-- The sum over the faces of cell `p` on a boundary. -/
noncomputable def rim (m : Mesh Pt n) (p : Fin m.count) (g : Site Pt → ℝ) (name : String) : ℝ :=
  match m.boundary name with
  | none => 0
  | some faces => (faces.map fun f => if f.1 = p then face f.2 g else 0).sum

/-- The integral of `g` over the surface of cell `p`; `g` is to be odd in the normal, which points out of the holder. -/
noncomputable def surface (m : Mesh Pt n) (c : Conditions Pt 5) (p : Fin m.count) (g : Site Pt → ℝ) : ℝ :=
  (m.faces.map fun f => (if f.1 = p then face f.2.2 g else 0) - (if f.2.1 = p then face f.2.2 g else 0)).sum +
    ((names c).map (rim m p g)).sum

/-- Something is true of all points on a boundary. -/
def OnRim (m : Mesh Pt n) (name : String) (g : Site Pt → Prop) : Prop :=
  ∀ faces, m.boundary name = some faces → ∀ f ∈ faces, ∀ q ∈ f.2, g q

/-- What is asked of a mesh: bases are orthonormal, the rules satisfy the divergence theorem for basis functions and for
products of two of them (those exact for polynomials of twice the degree do, on cells with plane faces), frames are
orthonormal, the boundaries named in conditions exist, constants have no gradient. -/
structure Regular (m : Mesh Pt n) (c : Conditions Pt 5) : Prop where
  basis : OrthonormalBasis m
  single : ∀ p i k, integrate (fun x => gradient m p x i k) (m.basis p).rule =
    surface m c p fun q => q.frame 0 k * basisValues (m.basis p) q.coord i
  product : ∀ p i j k, integrate (fun x => basisValues (m.basis p) x j * gradient m p x i k +
      basisValues (m.basis p) x i * gradient m p x j k) (m.basis p).rule =
    surface m c p fun q => q.frame 0 k * (basisValues (m.basis p) q.coord j * basisValues (m.basis p) q.coord i)
  frames : ∀ f ∈ m.faces, ∀ q ∈ f.2.2, Orthonormal q.frame
  edges : ∀ name, OnRim m name fun q => Orthonormal q.frame
  known : ∀ name ∈ names c, m.boundary name ≠ none
  flat : n = 0 → ∀ p x i k, gradient m p x i k = 0

/-- The solvers of all faces return the flux of the gas if there is the same gas on both sides. -/
def Consistent (m : Mesh Pt n) (γ : ℝ) : Prop :=
  ∀ f ∈ m.faces, ∀ q ∈ f.2.2, ∀ s, Admissible γ s → q.solver s s = flux γ (q.frame 0) s

/-- The Gaussian points of cells and faces. -/
inductive Place (m : Mesh Pt n) : Pt → Prop
  | cell {p : Fin m.count} {xw : Pt × ℝ} : xw ∈ (m.basis p).rule → Place m xw.1
  | face {f : Fin m.count × Fin m.count × List (Site Pt)} {q : Site Pt} : f ∈ m.faces → q ∈ f.2.2 → Place m q.coord
  | rim {name : String} {faces : List (Fin m.count × List (Site Pt))} {f : Fin m.count × List (Site Pt)} {q : Site Pt} :
    m.boundary name = some faces → f ∈ faces → q ∈ f.2 → Place m q.coord

/-- The boundary conditions prescribe the wave `U` wherever they prescribe anything, and walls are along the flow. -/
structure Fits (m : Mesh Pt n) (v : Fin 3 → ℝ) (c : Conditions Pt 5) (U : Pt → ℝ → Tup 2) : Prop where
  wall : ∀ name ∈ c.solidWall, OnRim m name fun q => ∑ k, v k * q.frame 0 k = 0
  supersonicInlet : ∀ nf ∈ c.supersonicInlet, OnRim m nf.1 fun q => ∀ t, tup (nf.2 q.coord t) = U q.coord t
  subsonicInlet : ∀ nf ∈ c.subsonicInlet, OnRim m nf.1 fun q => ∀ t, tup (nf.2 q.coord t) = U q.coord t
  subsonicOutlet : ∀ nf ∈ c.subsonicOutlet, OnRim m nf.1 fun q => ∀ t, tup (nf.2 q.coord t) = U q.coord t
  smart : ∀ nf ∈ c.smart, OnRim m nf.1 fun q => ∀ t, tup (nf.2 q.coord t) = U q.coord t

end MiniCFD.Spec.Carry
