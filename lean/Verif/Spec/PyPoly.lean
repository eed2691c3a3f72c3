import Mathlib.Analysis.Calculus.Deriv.Basic
import Mathlib.Algebra.Polynomial.Derivative
import Mathlib.Algebra.Polynomial.Eval.Degree
import Mathlib.MeasureTheory.Integral.IntervalIntegral.Basic

/-!
# What flux reconstruction needs of its correction functions

The functions are seen only through what `local_to_value` and `local_to_gradient` return.
-/

namespace MiniCFD.Spec.PyPoly
open Polynomial

/-- `grad` returns the derivatives of the two functions returned by `value`. -/
def Differentiates (value grad : ℝ → ℝ × ℝ) : Prop :=
  ∀ x, HasDerivAt (fun x => (value x).1) (grad x).1 x ∧ HasDerivAt (fun x => (value x).2) (grad x).2 x

/-- Polynomials of degree at most `d`; the left one is one at the left end and zero at the right end,
the right one is its mirror image. -/
structure IsPair (d : ℕ) (value grad : ℝ → ℝ × ℝ) : Prop where
  poly : ∃ p : ℝ[X], p.natDegree ≤ d ∧ ∀ x, (value x).2 = p.eval x
  mirror : ∀ x, (value x).1 = (value (-x)).2
  near : (value 1).2 = 1
  far : (value (-1)).2 = 0
  differentiates : Differentiates value grad

/-- Orthogonal on `[-1, 1]` to all polynomials of degree below `n`. -/
def Orthogonal (f : ℝ → ℝ) (n : ℕ) : Prop :=
  ∀ q : ℝ[X], q.degree < n → ∫ x in (-1 : ℝ)..1, f x * q.eval x = 0

/-- The lumping conditions: the derivatives of order below `m` vanish at `-1`. -/
def Lumped (p : ℝ[X]) (m : ℕ) : Prop := ∀ l < m, (derivative^[l] p).eval (-1) = 0

/-- A quadrature rule with `n` points that is exact to degree `2 n - 1`, as `roots_legendre` promises. -/
def GaussLegendre {n : ℕ} (x w : Fin n → ℝ) : Prop :=
  ∀ p : ℝ[X], p.natDegree ≤ 2 * n - 1 → ∑ q, w q * p.eval (x q) = ∫ t in (-1 : ℝ)..1, p.eval t

end MiniCFD.Spec.PyPoly
