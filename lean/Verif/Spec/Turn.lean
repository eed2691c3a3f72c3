import Verif.Model.Gas
import Verif.Spec.Euler

/-!
# A mesh and its image under a rotation or reflection

Two meshes of which one is the image of the other, and what it means that one flow is the image of another.
-/

namespace MiniCFD.Spec.Turn

open MiniCFD.Gas MiniCFD.Residual MiniCFD.Projection MiniCFD.Ortho MiniCFD.Euler MiniCFD.Spec.Euler

/-- A state with its momentum, velocity or force turned by `Q`. -/
def turn {d : Nat} (Q : Frame d) (s : Tup d) : Tup d := ⟨s.mass, fun i => ∑ j, Q i j * s.mom j, s.energy⟩

/-- A frame whose normal is that of another one turned by `Q`.  Nothing is asked of the other two axes. -/
structure Frames {d : Nat} (Q F F' : Frame d) : Prop where
  orthonormal : Orthonormal F
  orthonormal' : Orthonormal F'
  normal : ∀ j, F' 0 j = ∑ k, Q j k * F 0 k

variable {Pt Pt' : Type} {n : Nat}

/-- A Gaussian point and its image: the solvers turn what they return if their arguments are turned. -/
structure Same (Q : Frame 2) (φ : Pt → Pt') (q : Site Pt) (q' : Site Pt') : Prop where
  coord : q'.coord = φ q.coord
  weight : q'.weight = q.weight
  frames : Frames Q q.frame q'.frame
  solver : ∀ l r, q'.solver (turn Q l) (turn Q r) = turn Q (q.solver l r)

/-- The same on the faces of a boundary. -/
def Rims (Q : Frame 2) (φ : Pt → Pt') {N N' : Nat} (e : Fin N → Fin N') :
    Option (List (Fin N × List (Site Pt))) → Option (List (Fin N' × List (Site Pt'))) → Prop
  | none, none => True
  | some l, some l' => List.Forall₂ (fun f f' => f'.1 = e f.1 ∧ List.Forall₂ (Same Q φ) f.2 f'.2) l l'
  | _, _ => False

/-- Basis functions are orthonormal under the rule of the cell. -/
def OrthonormalBasis (m : Mesh Pt n) : Prop :=
  ∀ p i j, integrate (fun x => basisValues (m.basis p) x i * basisValues (m.basis p) x j) (m.basis p).rule =
    if i = j then 1 else 0

/-- The gradient of a basis function at a point. -/
def gradient (m : Mesh Pt n) (p : Fin m.count) (x : Pt) (i : Fin (n + 1)) (k : Fin 3) : ℝ :=
  m.gradValue p (fun j => (m.basis p).linear.coeff i j) x k

/-- The second mesh is the image of the first under `φ`, which turns directions by `Q`.  Cell `p` goes to cell `e p`, the
Gaussian points with their weights to Gaussian points; the basis of the image spans the images of the functions of the
first basis, but need not consist of them. -/
structure Image (Q : Frame 2) (φ : Pt → Pt') (m : Mesh Pt n) (m' : Mesh Pt' n) (e : Fin m.count → Fin m'.count) :
    Prop where
  bijective : Function.Bijective e
  turn : Orthonormal Q
  basis : OrthonormalBasis m
  basis' : OrthonormalBasis m'
  span : ∀ p, ∃ M : Matrix (Fin (n + 1)) (Fin (n + 1)) ℝ,
    (∀ x i, basisValues (m'.basis (e p)) (φ x) i = ∑ j, M i j * basisValues (m.basis p) x j) ∧
    ∀ x i k, gradient m' (e p) (φ x) i k = ∑ j, M i j * ∑ l, Q k l * gradient m p x j l
  rule : ∀ p, (m'.basis (e p)).rule = (m.basis p).rule.map fun xw => (φ xw.1, xw.2)
  faces : List.Forall₂ (fun f f' => f'.1 = e f.1 ∧ f'.2.1 = e f.2.1 ∧ List.Forall₂ (Same Q φ) f.2.2 f'.2.2)
    m.faces m'.faces
  rims : ∀ name, Rims Q φ e (m.boundary name) (m'.boundary name)
  flat : n = 0 → ∀ p x i k, gradient m p x i k = 0

/-- Functions that prescribe a state and its image. -/
def Funcs (Q : Frame 2) (φ : Pt → Pt') : String × Func Pt 5 → String × Func Pt' 5 → Prop := fun f f' =>
  f'.1 = f.1 ∧ ∀ x t, tup (f'.2 (φ x) t) = turn Q (tup (f.2 x t))

/-- The same conditions on the image. -/
structure Likewise (Q : Frame 2) (φ : Pt → Pt') (c : Conditions Pt 5) (c' : Conditions Pt' 5) : Prop where
  solidWall : c'.solidWall = c.solidWall
  supersonicOutlet : c'.supersonicOutlet = c.supersonicOutlet
  supersonicInlet : List.Forall₂ (Funcs Q φ) c.supersonicInlet c'.supersonicInlet
  subsonicInlet : List.Forall₂ (Funcs Q φ) c.subsonicInlet c'.subsonicInlet
  subsonicOutlet : List.Forall₂ (Funcs Q φ) c.subsonicOutlet c'.subsonicOutlet
  smart : List.Forall₂ (Funcs Q φ) c.smart c'.smart

/-- The state (or the rate) at a point of a cell. -/
noncomputable def gas (m : Mesh Pt n) (p : Fin m.count) (w : Coeff 5 n) (x : Pt) : Tup 2 :=
  tup fun r => ∑ i, w r i * basisValues (m.basis p) x i

/-- One flow is the image of the other. -/
def Follows (Q : Frame 2) (φ : Pt → Pt') (m : Mesh Pt n) (m' : Mesh Pt' n) (e : Fin m.count → Fin m'.count)
    (u : Fin m.count → Coeff 5 n) (u' : Fin m'.count → Coeff 5 n) : Prop :=
  ∀ p x, gas m' (e p) (u' (e p)) (φ x) = turn Q (gas m p (u p) x)

/-- All boundaries with a condition exist. -/
def Known (m : Mesh Pt n) (c : Conditions Pt 5) : Prop := ∀ job ∈ jobs c 0, m.boundary job.1 ≠ none

end MiniCFD.Spec.Turn
