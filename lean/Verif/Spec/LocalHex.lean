import Mathlib.Analysis.Calculus.FDeriv.Basic
import Mathlib.Analysis.Calculus.FDeriv.Add
import Mathlib.Analysis.Calculus.FDeriv.Pi
import Mathlib.Analysis.Normed.Module.FiniteDimension

/-!
# Functions of the physical coordinates

Gradients and Hessians of functions on `ℝ³`; nothing here mentions cells or bases.
-/

namespace MiniCFD.Spec.LocalHex

open scoped Topology

/-- The linear form with the given coefficients. -/
noncomputable def form (g : Fin 3 → ℝ) : (Fin 3 → ℝ) →L[ℝ] ℝ :=
  ∑ c, g c • ContinuousLinearMap.proj (R := ℝ) (φ := fun _ : Fin 3 => ℝ) c

/-- `u` is differentiable at `x` and `g` lists its partial derivatives there. -/
def HasGradient (u : (Fin 3 → ℝ) → ℝ) (g : Fin 3 → ℝ) (x : Fin 3 → ℝ) : Prop := HasFDerivAt u (form g) x

/-- `u` is twice differentiable at `x`, and `h c d` is the derivative along `d` of its derivative along `c`. -/
def HasHessian (u : (Fin 3 → ℝ) → ℝ) (h : Fin 3 → Fin 3 → ℝ) (x : Fin 3 → ℝ) : Prop :=
  ∃ G : (Fin 3 → ℝ) → Fin 3 → ℝ, (∀ᶠ y in 𝓝 x, HasGradient u (G y) y) ∧
    ∀ c, HasGradient (fun y => G y c) (h c) x

/-- Seen through the map `X`, the function `u` is `v` near `p`. -/
def Represents (X : (Fin 3 → ℝ) → Fin 3 → ℝ) (v : (Fin 3 → ℝ) → ℝ) (p : Fin 3 → ℝ) (u : (Fin 3 → ℝ) → ℝ) : Prop :=
  ∀ᶠ q in 𝓝 p, u (X q) = v q

end MiniCFD.Spec.LocalHex
