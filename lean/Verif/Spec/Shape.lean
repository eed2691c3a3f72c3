import Mathlib.Analysis.Calculus.Deriv.Basic
import Mathlib.Algebra.BigOperators.Fin

/-!
# What a family of shape functions must satisfy

Nothing here mentions the model of the elements: a family is any function from local points to `n`
values.
-/

namespace MiniCFD.Spec.Shape

variable {d n D : Nat}

/-- The value of the `i`-th function at the `j`-th node is 1 when `i = j` and 0 otherwise. -/
def Cardinal (N : (Fin d → ℝ) → Fin n → ℝ) (nodes : Fin n → Fin d → ℝ) : Prop :=
  ∀ i j, N (nodes j) i = if i = j then 1 else 0

/-- Interpolating `f` at the nodes gives `f` back everywhere. -/
def Reproduces (N : (Fin d → ℝ) → Fin n → ℝ) (nodes : Fin n → Fin d → ℝ)
    (f : (Fin d → ℝ) → ℝ) : Prop :=
  ∀ p, ∑ i, N p i * f (nodes i) = f p

/-- `v` is the partial derivative of `f` along axis `j` at `p`. -/
def HasPartial (f : (Fin d → ℝ) → ℝ) (j : Fin d) (v : ℝ) (p : Fin d → ℝ) : Prop :=
  HasDerivAt (fun s => f (Function.update p j s)) v (p j)

/-- `v` is the mixed second derivative of `f`, first along axis `j`, then along axis `k`, at `p`. -/
def HasPartial2 (f : (Fin d → ℝ) → ℝ) (j k : Fin d) (v : ℝ) (p : Fin d → ℝ) : Prop :=
  ∃ g : (Fin d → ℝ) → ℝ, (∀ q, HasPartial f j (g q) q) ∧ HasPartial g k v p

/-- The map that squeezes the cube `[-1, 1]³` to the pyramid of height 2 over `[-1, 1]²`. -/
noncomputable def collapse (p : Fin 3 → ℝ) : Fin 3 → ℝ :=
  fun j => if j = 2 then p 2 else p j * ((1 - p 2) / 2)

/-- A family of shape functions `N` with claimed gradients `G` for the given nodes: cardinal, a
partition of unity, exact for the coordinates of the straight element `φ`, and `G` is the gradient. -/
structure IsFamily (nodes : Fin n → Fin d → ℝ) (N : (Fin d → ℝ) → Fin n → ℝ)
    (G : (Fin d → ℝ) → Fin n → Fin d → ℝ) (φ : (Fin d → ℝ) → Fin d → ℝ) : Prop where
  cardinal : Cardinal N nodes
  unity : ∀ p, ∑ i, N p i = 1
  linear : ∀ j, Reproduces N nodes (fun p => φ p j)
  gradient : ∀ p i j, HasPartial (fun q => N q i) j (G p i j) p

/-- An affine map. -/
def affine (A : Fin D → Fin d → ℝ) (b : Fin D → ℝ) (x : Fin d → ℝ) : Fin D → ℝ :=
  fun c => (∑ j, A c j * x j) + b c

end MiniCFD.Spec.Shape
