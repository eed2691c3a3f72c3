import Mathlib.Analysis.Real.Sqrt

/-!
# Model of the numerical integration functions, of orthonormalisation and of the linear basis

Covers `include/mini/gauss/function.hpp` and `include/mini/basis/linear.hpp`.  Scalars are real
numbers.  Matrices are functions of two natural numbers of which the entries below the size matter.
-/

namespace MiniCFD.Ortho

/-- A quadrature rule: its points with their weights, as returned by `GetGlobalCoord(i)` and
`GetGlobalWeight(i)` (or the local ones) for `i = 0 … CountPoints() - 1`. -/
abbrev Rule (Pt : Type*) := List (Pt × ℝ)

variable {Pt : Type*}

/-- `Integrate`, function.hpp:51-64, and `Quadrature`, function.hpp:26-39, for a scalar integrand
(matrices are integrated entry by entry). -/
noncomputable def integrate (f : Pt → ℝ) (rule : Rule Pt) : ℝ :=
  rule.foldl (fun sum pw => sum + f pw.1 * pw.2) 0

/-- `Innerprod`, function.hpp:77-85. -/
noncomputable def innerprod (f g : Pt → ℝ) (rule : Rule Pt) : ℝ :=
  integrate (fun p => f p * g p) rule

/-- `Norm`, function.hpp:96-101. -/
noncomputable def norm (f : Pt → ℝ) (rule : Rule Pt) : ℝ := Real.sqrt (innerprod f f rule)

/-- The matrix `A` of `OrthoNormalize`, function.hpp:117-121. -/
noncomputable def gram (basis : Pt → Nat → ℝ) (rule : Rule Pt) (i j : Nat) : ℝ :=
  integrate (fun p => basis p i * basis p j) rule

/-- A row vector and a matrix. -/
abbrev Row := Nat → ℝ
abbrev Mat := Nat → Row

/-- A loop `for (k = 0; k < n; ++k) sum += f(k)`. -/
noncomputable def sumLoop (n : Nat) (f : Nat → ℝ) : ℝ :=
  (List.range n).foldl (fun sum k => sum + f k) 0

/-- The body of the loop over `j`, function.hpp:125-131: subtract from row `i` its component along
row `j`. -/
noncomputable def subtract (A S : Mat) (i : Nat) (r : Row) (j : Nat) : Row :=
  let temp := sumLoop (j + 1) fun k => S j k * A k i
  fun l => if l ≤ j then r l - temp * S j l else r l

/-- `norm_sq` of row `i`, function.hpp:133-140. -/
noncomputable def normSq (A : Mat) (i : Nat) (r : Row) : ℝ :=
  sumLoop (i + 1) fun j =>
    let sum := sumLoop j fun k => 2 * r k * A k j
    r j * (r j * A j j + sum)

/-- Row `i` of `S` after the pass `i` of the outer loop, function.hpp:124-141; the row starts as the
row of the identity matrix. -/
noncomputable def newRow (A S : Mat) (i : Nat) : Row :=
  let r := (List.range i).foldl (subtract A S i) fun l => if l = i then 1 else 0
  let nrm := Real.sqrt (normSq A i r)
  fun l => r l / nrm

/-- Overwrite a row. -/
def setRow (S : Mat) (i : Nat) (r : Row) : Mat := fun k => if k = i then r else S k

/-- `S` after the rows `0 … n` have been made, function.hpp:122-142. -/
noncomputable def orthoS (A : Mat) : Nat → Mat
  | 0 => setRow (fun i j => if i = j then 1 else 0) 0
      fun l => if l = 0 then 1 / Real.sqrt (A 0 0) else 0
  | n + 1 => setRow (orthoS A n) (n + 1) (newRow A (orthoS A n) (n + 1))

/-- `Linear`, linear.hpp:31-85, with `N` components over a vector of Taylor values. -/
structure Linear (N : Nat) where
  coeff : Mat

/-- The constructors, linear.hpp:42-49. -/
def Linear.init (N : Nat) : Linear N := ⟨fun i j => if i = j then 1 else 0⟩

/-- `operator()`, linear.hpp:56-60, as a function of the vector of Taylor values at the point: the
lower triangular part of `coeff_` times the vector. -/
noncomputable def Linear.eval {N : Nat} (b : Linear N) (taylor : Row) (i : Nat) : ℝ :=
  ∑ j ∈ Finset.range (i + 1), b.coeff i j * taylor j

/-- `Transform(LowerTriangularView const &)`, linear.hpp:71-75: the lower triangular part of
`a * coeff_` replaces that of `coeff_`. -/
noncomputable def Linear.transform {N : Nat} (b : Linear N) (a : Mat) : Linear N :=
  ⟨fun i j => if j ≤ i then ∑ k ∈ Finset.range (i + 1), a i k * b.coeff k j else b.coeff i j⟩

/-- `OrthoNormalize(&basis, gauss)`, function.hpp:111-144. -/
noncomputable def orthoNormalize {N : Nat} (b : Linear N) (taylor : Pt → Row) (rule : Rule Pt) :
    Linear N :=
  b.transform (orthoS (gram (fun p => b.eval (taylor p)) rule) (N - 1))

/-- `OrthoNormal::operator()`, linear.hpp:119-124: the whole of `coeff_` times the vector. -/
noncomputable def fullEval {N : Nat} (b : Linear N) (taylor : Row) (i : Nat) : ℝ :=
  ∑ j ∈ Finset.range N, b.coeff i j * taylor j

/-- `OrthoNormal::Measure`, linear.hpp:125-128. -/
noncomputable def measure {N : Nat} (b : Linear N) : ℝ := 1 / (b.coeff 0 0 * b.coeff 0 0)

end MiniCFD.Ortho
