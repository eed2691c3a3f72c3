import Verif.Model.Gas
import Verif.Spec.Turn

/-!
# Units of measurement

The same flow on the same mesh, written down in other units.
-/

namespace MiniCFD.Spec.Units

open MiniCFD.Gas MiniCFD.Residual MiniCFD.Projection MiniCFD.Ortho MiniCFD.Euler MiniCFD.Spec.Euler MiniCFD.Spec.Turn

/-- How many new units there are in an old unit of density, velocity and length. -/
structure Units where
  density : ℝ
  velocity : ℝ
  length : ℝ
  density_pos : 0 < density
  velocity_pos : 0 < velocity
  length_pos : 0 < length

namespace Units

variable {d : Nat} (k : Units)

/-- Density, momentum and energy of a volume in the new units. -/
def state (s : Tup d) : Tup d :=
  ⟨k.density * s.mass, fun i => k.density * k.velocity * s.mom i, k.density * k.velocity ^ 2 * s.energy⟩

/-- Density, velocity and pressure in the new units. -/
def prim (s : Tup d) : Tup d :=
  ⟨k.density * s.mass, fun i => k.velocity * s.mom i, k.density * k.velocity ^ 2 * s.energy⟩

/-- What passes a unit of area in a unit of time, in the new units. -/
def flux (s : Tup d) : Tup d :=
  ⟨k.density * k.velocity * s.mass, fun i => k.density * k.velocity ^ 2 * s.mom i,
    k.density * k.velocity ^ 3 * s.energy⟩

/-- New units of time in an old one. -/
noncomputable def time : ℝ := k.length / k.velocity

end Units

/-- Nothing moves where there is no mass.  (`ConservativeToPrimitive` takes the momentum of a state without mass for its
velocity, types.hpp:246-258, which is a matter of units unless that of density stays.) -/
def Fine {d : Nat} (k : Units) (s : Tup d) : Prop := s.mass = 0 → k.density = 1 ∨ s.mom = 0

variable {Pt Pt' : Type} {n : Nat}

/-- A Gaussian point of a face in old and in new units: the weight is an area. -/
structure Same (k : Units) (φ : Pt → Pt') (q : Site Pt) (q' : Site Pt') : Prop where
  coord : q'.coord = φ q.coord
  weight : q'.weight = k.length ^ 2 * q.weight
  frame : q'.frame = q.frame
  solver : ∀ l r, Fine k l → Fine k r → q'.solver (k.state l) (k.state r) = k.flux (q.solver l r)

/-- The same on the faces of a boundary. -/
def Rims (k : Units) (φ : Pt → Pt') {N N' : Nat} (e : Fin N → Fin N') :
    Option (List (Fin N × List (Site Pt))) → Option (List (Fin N' × List (Site Pt'))) → Prop
  | none, none => True
  | some l, some l' => List.Forall₂ (fun f f' => f'.1 = e f.1 ∧ List.Forall₂ (Same k φ) f.2 f'.2) l l'
  | _, _ => False

/-- The second mesh is the first one in other units: `φ` takes the coordinates of a point in old units to those in new
units, weights of cells are volumes, and gradients are per length.  Cells may be renumbered.  The basis of the second mesh
spans the same functions. -/
structure Redrawn (k : Units) (φ : Pt → Pt') (m : Mesh Pt n) (m' : Mesh Pt' n) (e : Fin m.count → Fin m'.count) :
    Prop where
  bijective : Function.Bijective e
  basis : OrthonormalBasis m
  basis' : OrthonormalBasis m'
  span : ∀ p, ∃ M : Matrix (Fin (n + 1)) (Fin (n + 1)) ℝ,
    (∀ x i, basisValues (m'.basis (e p)) (φ x) i = ∑ j, M i j * basisValues (m.basis p) x j) ∧
    ∀ x i c, k.length * gradient m' (e p) (φ x) i c = ∑ j, M i j * gradient m p x j c
  rule : ∀ p, (m'.basis (e p)).rule = (m.basis p).rule.map fun xw => (φ xw.1, k.length ^ 3 * xw.2)
  faces : List.Forall₂ (fun f f' => f'.1 = e f.1 ∧ f'.2.1 = e f.2.1 ∧ List.Forall₂ (Same k φ) f.2.2 f'.2.2)
    m.faces m'.faces
  rims : ∀ name, Rims k φ e (m.boundary name) (m'.boundary name)
  flat : n = 0 → ∀ p x i c, gradient m p x i c = 0

/-- Functions that prescribe a state at a place and a time. -/
def Funcs (k : Units) (φ : Pt → Pt') : String × Func Pt 5 → String × Func Pt' 5 → Prop := fun f f' =>
  f'.1 = f.1 ∧ ∀ x t, Fine k (tup (f.2 x t)) ∧ tup (f'.2 (φ x) (k.time * t)) = k.state (tup (f.2 x t))

/-- The same conditions in other units. -/
structure Likewise (k : Units) (φ : Pt → Pt') (c : Conditions Pt 5) (c' : Conditions Pt' 5) : Prop where
  solidWall : c'.solidWall = c.solidWall
  supersonicOutlet : c'.supersonicOutlet = c.supersonicOutlet
  supersonicInlet : List.Forall₂ (Funcs k φ) c.supersonicInlet c'.supersonicInlet
  subsonicInlet : List.Forall₂ (Funcs k φ) c.subsonicInlet c'.subsonicInlet
  subsonicOutlet : List.Forall₂ (Funcs k φ) c.subsonicOutlet c'.subsonicOutlet
  smart : List.Forall₂ (Funcs k φ) c.smart c'.smart

/-- The same flow in other units. -/
def Follows (k : Units) (φ : Pt → Pt') (m : Mesh Pt n) (m' : Mesh Pt' n) (e : Fin m.count → Fin m'.count)
    (u : Fin m.count → Coeff 5 n) (u' : Fin m'.count → Coeff 5 n) : Prop :=
  ∀ p x, gas m' (e p) (u' (e p)) (φ x) = k.state (gas m p (u p) x)

/-- Nothing moves without mass. -/
def Weighs (k : Units) (m : Mesh Pt n) (u : Fin m.count → Coeff 5 n) : Prop := ∀ p x, Fine k (gas m p (u p) x)

end MiniCFD.Spec.Units
