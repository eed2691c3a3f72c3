import Verif.Spec.Taylor
import Verif.Model.Ortho
import Mathlib.Analysis.SpecialFunctions.Pow.Real

/-! The smoothness indicator of Jiang and Shu in three dimensions. -/

namespace MiniCFD.Spec.Weno

open MiniCFD.Spec.Taylor MiniCFD.Ortho

/-- The order of a mixed derivative. -/
def order (a : Expo) : Nat := a.1 + a.2.1 + a.2.2

/-- One term: the scaled integral of the square of a derivative, `h^(2|a|-3) ∫ (D^a f)²` with `h = V^(1/3)`.
The function is given in coordinates relative to `center`. -/
noncomputable def term (f : ℝ → ℝ → ℝ → ℝ) (center : ℝ × ℝ × ℝ) (rule : Rule (ℝ × ℝ × ℝ)) (volume : ℝ)
    (a : Expo) : ℝ :=
  volume ^ (2 * (order a : ℝ) / 3 - 1) * integrate (fun p =>
    mixed a f (p.1 - center.1) (p.2.1 - center.2.1) (p.2.2 - center.2.2) ^ 2) rule

/-- The sum over the first `N` multi-indices after the constant one. -/
noncomputable def indicator (N : Nat) (hN : N < 20) (f : ℝ → ℝ → ℝ → ℝ) (center : ℝ × ℝ × ℝ)
    (rule : Rule (ℝ × ℝ × ℝ)) (volume : ℝ) : ℝ :=
  ∑ i : Fin N, term f center rule volume (expo3 (i.succ.castLE hN))

end MiniCFD.Spec.Weno
