import Verif.Model.Energy

/-!
# Energy

The integral of the square of the solution, what it loses at faces, and what is asked of the quadrature rules.
-/

namespace MiniCFD.Spec.Energy

open MiniCFD.Energy MiniCFD.Residual MiniCFD.Projection MiniCFD.Ortho

variable {Pt : Type} {n : Nat}

/-- The solution in a cell. -/
noncomputable def sol (m : Mesh Pt n) (p : Fin m.count) (v : Fin (n + 1) → ℝ) (x : Pt) : ℝ :=
  ∑ i, v i * basisValues (m.basis p) x i

/-- Its derivative in direction `k`. -/
noncomputable def slope (m : Mesh Pt n) (p : Fin m.count) (v : Fin (n + 1) → ℝ) (x : Pt) (k : Fin 3) : ℝ :=
  ∑ i, v i * m.gradValue p (fun j => (m.basis p).linear.coeff i j) x k

/-- The integral of the square of the solution over the mesh. -/
noncomputable def energy (m : Mesh Pt n) (u : Fin m.count → Coeff 1 n) : ℝ :=
  ∑ p, integrate (fun x => sol m p (u p 0) x ^ 2) (m.basis p).rule

/-- Half the rate of change of the energy, if the coefficients change at the rates `r`: the integral of the product. -/
noncomputable def power (m : Mesh Pt n) (u r : Fin m.count → Coeff 1 n) : ℝ :=
  ∑ p, integrate (fun x => sol m p (u p 0) x * sol m p (r p 0) x) (m.basis p).rule

/-- The flux of the equation is `a` times this. -/
noncomputable def shape : Law → ℝ → ℝ
  | .single, u => u
  | .burgers, u => u ^ 2 / 2

/-- A primitive of it: the flux of half the square of the solution is `a` times `u * shape u` less this. -/
noncomputable def potential : Law → ℝ → ℝ
  | .single, u => u ^ 2 / 2
  | .burgers, u => u ^ 3 / 6

/-- The coefficient in the direction of the normal. -/
def along (a : Fin 3 → ℝ) (q : Point Pt) : ℝ := ∑ k, a k * q.normal k

/-- The boundaries with a condition. -/
def names (c : Conditions Pt 1) : List String :=
  c.solidWall ++ c.supersonicInlet.map Prod.fst ++ c.supersonicOutlet ++ c.subsonicInlet.map Prod.fst ++
    c.subsonicOutlet.map Prod.fst ++ c.smart.map Prod.fst

/-- `∑ w g` over the points of a face. -/
noncomputable def face (points : List (Point Pt)) (g : Point Pt → ℝ) : ℝ := (points.map fun q => q.weight * g q).sum

/-- The sum over the faces of a boundary, `g` being told the holder. -/
noncomputable def rim (m : Mesh Pt n) (name : String) (g : Fin m.count → Point Pt → ℝ) : ℝ :=
  match m.boundary name with
  | none => 0
  | some faces => (faces.map fun f => face f.2 (g f.1)).sum

/-- The integral of `g` over the surface of cell `p`; `g` is to be odd in the normal, which points out of the holder. -/
noncomputable def surface (m : Mesh Pt n) (c : Conditions Pt 1) (p : Fin m.count) (g : Point Pt → ℝ) : ℝ :=
  (m.faces.map fun f => (if f.1 = p then face f.2.2 g else 0) - (if f.2.1 = p then face f.2.2 g else 0)).sum +
    ((names c).map fun name => rim m name fun h q => if h = p then g q else 0).sum

/-- The rules satisfy the divergence theorem for the potential of every function of the space, on every cell.  (Rules
that are exact for polynomials of two respectively three times the degree do, on cells with plane faces.) -/
def ByParts (m : Mesh Pt n) (law : Law) (c : Conditions Pt 1) : Prop :=
  ∀ p (v : Fin (n + 1) → ℝ) (k : Fin 3),
    integrate (fun x => shape law (sol m p v x) * slope m p v x k) (m.basis p).rule =
      surface m c p fun q => q.normal k * potential law (sol m p v q.coord)

/-- What is asked of a mesh and the boundary conditions on it: the bases are orthonormal, constant functions have no
gradient, faces have positive weights, the boundaries named in conditions exist. -/
structure Regular (m : Mesh Pt n) (c : Conditions Pt 1) : Prop where
  orth : ∀ p i j, integrate (fun x => basisValues (m.basis p) x i * basisValues (m.basis p) x j) (m.basis p).rule =
    if i = j then 1 else 0
  flat : n = 0 → ∀ p v x k, m.gradValue p v x k = 0
  weights : ∀ f ∈ m.faces, ∀ q ∈ f.2.2, 0 ≤ q.weight
  rims : ∀ name faces, m.boundary name = some faces → ∀ f ∈ faces, ∀ q ∈ f.2, 0 ≤ q.weight
  known : ∀ name ∈ names c, m.boundary name ≠ none

/-- What a face between the states `l` and `r` takes from the energy. -/
noncomputable def loss (law : Law) (alpha l r : ℝ) : ℝ :=
  (l - r) * law.upwind alpha l r - alpha * (potential law l - potential law r)

/-- The power that comes in through a boundary point with flux `f` out of the mesh, where the solution is `u`. -/
noncomputable def income (law : Law) (alpha f u : ℝ) : ℝ := alpha * potential law u - f * u

/-- Only conditions for which the scalar solvers compute a flux are used. -/
structure Supported (c : Conditions Pt 1) : Prop where
  subsonicInlet : c.subsonicInlet = []
  subsonicOutlet : c.subsonicOutlet = []
  smart : c.smart = []

/-- The speed along the normal. -/
def speed : Law → ℝ → ℝ → ℝ
  | .single, alpha, _ => alpha
  | .burgers, alpha, u => alpha * u

/-- Something is true of all points on a boundary, the holder being told. -/
def OnRim (m : Mesh Pt n) (name : String) (g : Fin m.count → Point Pt → Prop) : Prop :=
  ∀ faces, m.boundary name = some faces → ∀ f ∈ faces, ∀ q ∈ f.2, g f.1 q

/-- The conditions fit the flow: it is tangential at walls, goes out at outlets and comes in at inlets. -/
structure Fits (m : Mesh Pt n) (law : Law) (a : Fin 3 → ℝ) (c : Conditions Pt 1) (u : Fin m.count → Coeff 1 n) :
    Prop where
  wall : ∀ name ∈ c.solidWall, OnRim m name fun _ q => along a q = 0
  outlet : ∀ name ∈ c.supersonicOutlet, OnRim m name fun h q => 0 ≤ speed law (along a q) (sol m h (u h 0) q.coord)
  inlet : ∀ nf ∈ c.supersonicInlet, OnRim m nf.1 fun h q => speed law (along a q) (sol m h (u h 0) q.coord) ≤ 0

/-- The most power that can come in where `g` is prescribed. -/
noncomputable def gain : Law → ℝ → ℝ → ℝ
  | .single, alpha, g => |alpha| * g ^ 2 / 2
  | .burgers, alpha, g => |alpha| * |g| ^ 3 / 3

/-- The conditions without inflow. -/
def quiet (c : Conditions Pt 1) : Conditions Pt 1 :=
  { c with supersonicInlet := c.supersonicInlet.map fun nf => (nf.1, fun _ _ _ => 0) }

end MiniCFD.Spec.Energy
