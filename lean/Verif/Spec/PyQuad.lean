import Mathlib.MeasureTheory.Integral.IntervalIntegral.Basic
import Mathlib.Algebra.Polynomial.Eval.Degree

/-! # What an integrator on an interval should compute -/

namespace MiniCFD.Spec.PyQuad
open Polynomial

/-- `q` integrates all polynomials of degree at most `d` over `[a, b]`. -/
def ExactOn (q : (ℝ → ℝ) → ℝ) (a b : ℝ) (d : ℕ) : Prop :=
  ∀ p : ℝ[X], p.natDegree ≤ d → q (fun x => p.eval x) = ∫ x in a..b, p.eval x

/-- The points increase strictly from one end to the other. -/
def Inside {n : ℕ} (a b : ℝ) (x : Fin n → ℝ) : Prop := StrictMono x ∧ ∀ i, a ≤ x i ∧ x i ≤ b

end MiniCFD.Spec.PyQuad
