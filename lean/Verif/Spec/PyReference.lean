import Mathlib.Analysis.Calculus.Deriv.Basic

/-! # What a reference solution should satisfy -/

namespace MiniCFD.Spec.PyReference

/-- `u` is a classical solution of `u_t + a u_x = b u_xx` on the whole plane. -/
def SolvesLinear (a b : ℝ) (u : ℝ → ℝ → ℝ) : Prop :=
  ∃ ut ux uxx : ℝ → ℝ → ℝ, ∀ x t,
    HasDerivAt (fun s => u x s) (ut x t) t ∧
    HasDerivAt (fun y => u y t) (ux x t) x ∧
    HasDerivAt (fun y => ux y t) (uxx x t) x ∧
    ut x t + a * ux x t = b * uxx x t

/-- `u` is a classical solution of `u_t + k u u_x = 0` at all times admitted by `T`. -/
def SolvesBurgers (k : ℝ) (T : ℝ → Prop) (u : ℝ → ℝ → ℝ) : Prop :=
  ∃ ut ux : ℝ → ℝ → ℝ, ∀ x t, T t →
    HasDerivAt (fun s => u x s) (ut x t) t ∧
    HasDerivAt (fun y => u y t) (ux x t) x ∧
    ut x t + k * u x t * ux x t = 0

/-- Root finding on an interval, in exact arithmetic. -/
def Bisects (bisect : (ℝ → ℝ) → ℝ → ℝ → ℝ) : Prop :=
  ∀ f a b, Continuous f → a ≤ b → f a * f b ≤ 0 → (a ≤ bisect f a b ∧ bisect f a b ≤ b) ∧ f (bisect f a b) = 0

end MiniCFD.Spec.PyReference
