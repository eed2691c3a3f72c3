import Mathlib.Data.Real.Basic
import Mathlib.Algebra.BigOperators.Group.Finset.Basic
import Mathlib.Data.Fintype.Basic

/-! What is asked of a first order scheme on a periodic grid: one number for each element. -/

namespace MiniCFD.Spec.PyFirst
variable {n : ℕ}

/-- All numbers lie between two bounds. -/
def Within (m M : ℝ) (u : Fin (n + 2) → ℝ) : Prop := ∀ i, m ≤ u i ∧ u i ≤ M

/-- The total variation around the grid. -/
noncomputable def variation (u : Fin (n + 2) → ℝ) : ℝ := ∑ i, |u (i + 1) - u i|

/-- The integral of the distance of two piecewise constant functions, `h` being the lengths of the elements. -/
noncomputable def distance (h u w : Fin (n + 2) → ℝ) : ℝ := ∑ i, h i * |u i - w i|

end MiniCFD.Spec.PyFirst
