import Mathlib.Data.Real.Basic
import Mathlib.Tactic.NormNum

/-!
# What a selective filter is

A symmetric stencil of eleven points; `weights` are the coefficients of Bogey and Bailly as given in the code.
A grid function is a function on all integers; the points of an array are its values at `0, ..., n - 1`.
-/

namespace MiniCFD.Spec.PyFilter

/-- The weight of the `j`th neighbours. -/
noncomputable def weights : Fin 6 → ℝ
  | 0 => 0.234810479761700
  | 1 => -0.199250131285813
  | 2 => 0.120198310245186
  | 3 => -0.049303775636020
  | 4 => 0.012396449873964
  | 5 => -0.001446093078167

/-- What the filter takes away from `u` at point `i`. -/
noncomputable def dissipation (u : ℤ → ℝ) (i : ℤ) : ℝ :=
  weights 0 * u i + weights 1 * (u (i + 1) + u (i - 1)) + weights 2 * (u (i + 2) + u (i - 2))
    + weights 3 * (u (i + 3) + u (i - 3)) + weights 4 * (u (i + 4) + u (i - 4)) + weights 5 * (u (i + 5) + u (i - 5))

/-- The array that holds the values of `u` at the first `n` points. -/
def sample (n : ℕ) (u : ℤ → ℝ) : List ℝ := List.ofFn fun i : Fin n => u i

end MiniCFD.Spec.PyFilter
