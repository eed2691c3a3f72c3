import Verif.Spec.Energy

/-!
# Schemes of degree zero

Finite volumes: what is asked of them, in terms of the functions which the columns stand for.
-/

namespace MiniCFD.Spec.Volumes

open MiniCFD.Energy MiniCFD.Spec.Energy MiniCFD.Residual MiniCFD.Projection MiniCFD.Ortho

variable {Pt : Type}

/-- Basis functions are constant: `κ p` in cell `p`. -/
def Constant (m : Mesh Pt 0) (κ : Fin m.count → ℝ) : Prop := ∀ p x i, basisValues (m.basis p) x i = κ p

/-- The volume of a cell, by its own rule. -/
noncomputable def volume (m : Mesh Pt 0) (p : Fin m.count) : ℝ := integrate (fun _ => 1) (m.basis p).rule

/-- The surfaces of all cells are closed, by the rules on faces. -/
def Closed (m : Mesh Pt 0) (c : Conditions Pt 1) : Prop := ∀ p k, surface m c p (fun q => q.normal k) = 0

/-- The values of the solution lie between two numbers. -/
def Within (m : Mesh Pt 0) (A B : ℝ) (u : Fin m.count → Coeff 1 0) : Prop :=
  ∀ p x, A ≤ sol m p (u p 0) x ∧ sol m p (u p 0) x ≤ B

/-- One solution is nowhere above another. -/
def Below (m : Mesh Pt 0) (u w : Fin m.count → Coeff 1 0) : Prop :=
  ∀ p x, sol m p (u p 0) x ≤ sol m p (w p 0) x

/-- The integral of the distance of two solutions. -/
noncomputable def distance (m : Mesh Pt 0) (u w : Fin m.count → Coeff 1 0) : ℝ :=
  ∑ p, integrate (fun x => |sol m p (u p 0) x - sol m p (w p 0) x|) (m.basis p).rule

/-- The sum over all points around a cell. -/
noncomputable def around (m : Mesh Pt 0) (c : Conditions Pt 1) (p : Fin m.count) (g : Point Pt → ℝ) : ℝ :=
  (m.faces.map fun f => (if f.1 = p then face f.2.2 g else 0) + (if f.2.1 = p then face f.2.2 g else 0)).sum +
    ((names c).map fun name => rim m name fun h q => if h = p then g q else 0).sum

/-- The greatest speed for a coefficient of one, if values lie between `A` and `B`. -/
noncomputable def fastest : Law → ℝ → ℝ → ℝ
  | .single, _, _ => 1
  | .burgers, A, B => max |A| |B|

/-- In a step nothing gets farther than through a cell. -/
def Courant (m : Mesh Pt 0) (law : Law) (a : Fin 3 → ℝ) (c : Conditions Pt 1) (A B dt : ℝ) : Prop :=
  ∀ p, dt * (fastest law A B * around m c p fun q => |along a q|) ≤ volume m p

/-- The conditions fit all flows between `A` and `B`: tangential at walls; values from this range come in at inlets. -/
structure Inflow (m : Mesh Pt 0) (law : Law) (a : Fin 3 → ℝ) (c : Conditions Pt 1) (A B : ℝ) : Prop where
  wall : ∀ name ∈ c.solidWall, OnRim m name fun _ q => along a q = 0
  inlet : ∀ nf ∈ c.supersonicInlet, OnRim m nf.1 fun _ q => ∀ v, A ≤ v → v ≤ B → speed law (along a q) v ≤ 0
  range : ∀ nf ∈ c.supersonicInlet, ∀ x t, A ≤ nf.2 x t 0 ∧ nf.2 x t 0 ≤ B

/-- Nothing comes back at outlets. -/
def Outflow (m : Mesh Pt 0) (law : Law) (a : Fin 3 → ℝ) (c : Conditions Pt 1) (A B : ℝ) : Prop :=
  ∀ name ∈ c.supersonicOutlet, OnRim m name fun _ q => ∀ v, A ≤ v → v ≤ B → 0 ≤ speed law (along a q) v

end MiniCFD.Spec.Volumes
