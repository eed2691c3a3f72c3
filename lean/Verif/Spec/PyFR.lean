import Mathlib.Algebra.BigOperators.Fin
import Mathlib.Algebra.Module.Basic
import Mathlib.Data.Real.Basic

/-! # What flux reconstruction works with -/

namespace MiniCFD.Spec.PyFR

/-- A polynomial of degree at most `d` with coefficients in `V`. -/
def PolyMap {V : Type*} [AddCommGroup V] [Module ℝ V] (d : ℕ) (F : ℝ → V) : Prop :=
  ∃ a : Fin (d + 1) → V, ∀ x, F x = ∑ k : Fin (d + 1), x ^ (k : ℕ) • a k

/-- `I` is the polynomial of degree at most `d` that has the values of `F` at the given points. -/
structure Interpolates {V : Type*} [AddCommGroup V] [Module ℝ V] (d : ℕ) (points : Fin (d + 1) → ℝ) (F I : ℝ → V) :
    Prop where
  poly : PolyMap d I
  values : ∀ j, I (points j) = F (points j)

end MiniCFD.Spec.PyFR
