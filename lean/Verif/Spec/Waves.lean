import Verif.Model.Waves
import Mathlib.MeasureTheory.Integral.IntervalIntegral.Basic

/-!
# Solutions of linear systems with jumps
-/

namespace MiniCFD.Spec.Waves

open Matrix

/-- A solution of `u_t + A u_x = 0` which may jump: what an interval gains in the course of time has come through its
ends. -/
def Conserved {K : Nat} (A : Matrix (Fin K) (Fin K) ℝ) (u : ℝ → ℝ → Fin K → ℝ) : Prop :=
  ∀ a b s t : ℝ, a ≤ b → s ≤ t → ∀ r,
    (∫ x in a..b, u x t r) - (∫ x in a..b, u x s r) = -∫ τ in s..t, (A *ᵥ (u b τ - u a τ)) r

end MiniCFD.Spec.Waves
