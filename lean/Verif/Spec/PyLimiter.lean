import Mathlib.Analysis.Calculus.IteratedDeriv.Defs
import Mathlib.MeasureTheory.Integral.IntervalIntegral.Basic

/-! Specification for the limiters of the Python code: smoothness indicators and weighted means of functions. -/

namespace MiniCFD.Spec.PyLimiter

/-- The indicator of Jiang and Shu in the form of Zhong and Shu, of a polynomial of degree `p` on `[a, b]`. -/
noncomputable def smoothness (p : ℕ) (a b : ℝ) (f : ℝ → ℝ) : ℝ :=
  ∑ k ∈ Finset.Icc 1 p, (b - a) ^ (2 * k - 1) * ∫ x in a..b, (iteratedDeriv k f x / k.factorial) ^ 2

/-- The indicator of Li, Wang and Ren. -/
noncomputable def smoothness' (p : ℕ) (a b : ℝ) (f : ℝ → ℝ) : ℝ :=
  ∑ k ∈ Finset.Icc 1 p, ((b - a) / 2) ^ (2 * k - 1) * ∫ x in a..b, (iteratedDeriv k f x / (k - 1).factorial) ^ 2

/-- The mean over `[a, b]`. -/
noncomputable def mean (a b : ℝ) (f : ℝ → ℝ) : ℝ := (b - a)⁻¹ * ∫ x in a..b, f x

/-- The weighted mean at a point. -/
noncomputable def weighted (ws : List ℝ) (fs : List (ℝ → ℝ)) (x : ℝ) : ℝ :=
  (List.zipWith (fun w f => w * f x) ws fs).sum / ws.sum

end MiniCFD.Spec.PyLimiter
