import Mathlib.MeasureTheory.Integral.IntervalIntegral.Basic
import Mathlib.Algebra.Polynomial.Eval.Degree

/-!
# What a quadrature rule should do

A rule is seen only as the functional `q` that it computes.
-/

namespace MiniCFD.Spec.Gauss

open Polynomial MeasureTheory intervalIntegral

/-- `q` integrates every polynomial of degree at most `d` exactly over `[-1, 1]`. -/
def ExactTo (q : (ℝ → ℝ) → ℝ) (d : ℕ) : Prop :=
  ∀ p : ℝ[X], p.natDegree ≤ d → q (fun x => p.eval x) = ∫ x in (-1)..1, p.eval x

/-- `q` integrates every polynomial of degree at most `d` against the weight function `w` over
`[-1, 1]`, up to `ε` times the sum of the absolute values of its coefficients. -/
def NearTo (w : ℝ → ℝ) (q : (ℝ → ℝ) → ℝ) (d : ℕ) (ε : ℝ) : Prop :=
  ∀ p : ℝ[X], p.natDegree ≤ d →
    |q (fun x => p.eval x) - ∫ x in (-1)..1, p.eval x * w x| ≤
      ε * ∑ k ∈ Finset.range (d + 1), |p.coeff k|

/-- The polynomial in two variables of total degree at most `d` with the given coefficients. -/
def poly2 (d : ℕ) (c : ℕ → ℕ → ℝ) (x y : ℝ) : ℝ :=
  ∑ a ∈ Finset.range (d + 1), ∑ b ∈ Finset.range (d + 1 - a), c a b * (x ^ a * y ^ b)

/-- The sum of the absolute values of its coefficients. -/
def size2 (d : ℕ) (c : ℕ → ℕ → ℝ) : ℝ :=
  ∑ a ∈ Finset.range (d + 1), ∑ b ∈ Finset.range (d + 1 - a), |c a b|

/-- Integral over the triangle with the corners `(0,0)`, `(1,0)` and `(0,1)`. -/
noncomputable def triangleIntegral (f : ℝ → ℝ → ℝ) : ℝ := ∫ x in (0)..1, ∫ y in (0)..(1 - x), f x y

/-- `q` integrates every polynomial of total degree at most `d` over the reference triangle, up to
`ε` times the size of its coefficients. -/
def TriangleTo (q : (ℝ × ℝ → ℝ) → ℝ) (d : ℕ) (ε : ℝ) : Prop :=
  ∀ c : ℕ → ℕ → ℝ,
    |q (fun p => poly2 d c p.1 p.2) - triangleIntegral (poly2 d c)| ≤ ε * size2 d c

/-- The polynomial in three variables of total degree at most `d` with the given coefficients. -/
def poly3 (d : ℕ) (c : ℕ → ℕ → ℕ → ℝ) (x y z : ℝ) : ℝ :=
  ∑ a ∈ Finset.range (d + 1), ∑ b ∈ Finset.range (d + 1 - a), ∑ e ∈ Finset.range (d + 1 - a - b),
    c a b e * (x ^ a * y ^ b * z ^ e)

/-- The sum of the absolute values of its coefficients. -/
def size3 (d : ℕ) (c : ℕ → ℕ → ℕ → ℝ) : ℝ :=
  ∑ a ∈ Finset.range (d + 1), ∑ b ∈ Finset.range (d + 1 - a), ∑ e ∈ Finset.range (d + 1 - a - b),
    |c a b e|

/-- Integral over the tetrahedron with the corners at the origin and at the three unit vectors. -/
noncomputable def tetrahedronIntegral (f : ℝ → ℝ → ℝ → ℝ) : ℝ :=
  ∫ x in (0)..1, ∫ y in (0)..(1 - x), ∫ z in (0)..(1 - x - y), f x y z

/-- `q` integrates every polynomial of total degree at most `d` over the reference tetrahedron, up to
`ε` times the size of its coefficients. -/
def TetrahedronTo (q : (ℝ × ℝ × ℝ → ℝ) → ℝ) (d : ℕ) (ε : ℝ) : Prop :=
  ∀ c : ℕ → ℕ → ℕ → ℝ,
    |q (fun p => poly3 d c p.1 p.2.1 p.2.2) - tetrahedronIntegral (poly3 d c)| ≤ ε * size3 d c

/-- The polynomial in two variables of degree at most `m` in the first and `n` in the second. -/
def tensor2 (m n : ℕ) (c : ℕ → ℕ → ℝ) (x y : ℝ) : ℝ :=
  ∑ a ∈ Finset.range (m + 1), ∑ b ∈ Finset.range (n + 1), c a b * (x ^ a * y ^ b)

/-- The polynomial in three variables with the given bound on its degree in each. -/
def tensor3 (m n l : ℕ) (c : ℕ → ℕ → ℕ → ℝ) (x y z : ℝ) : ℝ :=
  ∑ a ∈ Finset.range (m + 1), ∑ b ∈ Finset.range (n + 1), ∑ e ∈ Finset.range (l + 1),
    c a b e * (x ^ a * y ^ b * z ^ e)

/-- The polynomial of total degree at most `d` in the first two variables and of degree at most `l` in
the third. -/
def prism (d l : ℕ) (c : ℕ → ℕ → ℕ → ℝ) (x y z : ℝ) : ℝ :=
  ∑ a ∈ Finset.range (d + 1), ∑ b ∈ Finset.range (d + 1 - a), ∑ e ∈ Finset.range (l + 1),
    c a b e * (x ^ a * y ^ b * z ^ e)

/-- Integral over the square `[-1, 1]²`. -/
noncomputable def squareIntegral (f : ℝ → ℝ → ℝ) : ℝ := ∫ x in (-1)..1, ∫ y in (-1)..1, f x y

/-- Integral over the cube `[-1, 1]³`. -/
noncomputable def cubeIntegral (f : ℝ → ℝ → ℝ → ℝ) : ℝ :=
  ∫ x in (-1)..1, ∫ y in (-1)..1, ∫ z in (-1)..1, f x y z

/-- Integral over the wedge: the reference triangle times `[-1, 1]`. -/
noncomputable def wedgeIntegral (f : ℝ → ℝ → ℝ → ℝ) : ℝ :=
  ∫ x in (0)..1, ∫ y in (0)..(1 - x), ∫ z in (-1)..1, f x y z

end MiniCFD.Spec.Gauss
