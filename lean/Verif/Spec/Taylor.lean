import Mathlib.Analysis.Calculus.IteratedDeriv.Defs
import Mathlib.Data.Fin.VecNotation

/-! Multi-indices of the monomials, polynomials with given coefficients and mixed partial
derivatives in the sense of calculus. -/

namespace MiniCFD.Spec.Taylor

/-- A triple of exponents. -/
abbrev Expo := Nat × Nat × Nat

/-- The monomials in three variables, by total degree and then alphabetically. -/
def expo3 : Fin 20 → Expo :=
  ![(0, 0, 0), (1, 0, 0), (0, 1, 0), (0, 0, 1),
    (2, 0, 0), (1, 1, 0), (1, 0, 1), (0, 2, 0), (0, 1, 1), (0, 0, 2),
    (3, 0, 0), (2, 1, 0), (2, 0, 1), (1, 2, 0), (1, 1, 1), (1, 0, 2),
    (0, 3, 0), (0, 2, 1), (0, 1, 2), (0, 0, 3)]

/-- The monomials in two variables. -/
def expo2 : Fin 10 → Nat × Nat :=
  ![(0, 0), (1, 0), (0, 1), (2, 0), (1, 1), (0, 2), (3, 0), (2, 1), (1, 2), (0, 3)]

/-- The polynomial with the given exponents and coefficients. -/
def poly {N : Nat} (e : Fin N → Expo) (c : Fin N → ℝ) (x y z : ℝ) : ℝ :=
  ∑ i, c i * (x ^ (e i).1 * y ^ (e i).2.1 * z ^ (e i).2.2)

/-- The mixed partial derivative of a function of three variables. -/
noncomputable def mixed (a : Expo) (f : ℝ → ℝ → ℝ → ℝ) (x y z : ℝ) : ℝ :=
  iteratedDeriv a.1 (fun x => iteratedDeriv a.2.1 (fun y => iteratedDeriv a.2.2 (fun z => f x y z) z)
    y) x

end MiniCFD.Spec.Taylor
