import Verif.Model.Ortho
import Mathlib.Data.Matrix.Mul

/-!
# Projections onto an orthonormal basis

Model of `mini/polynomial/projection.hpp` (`Projection` and `ProjectionWrapper`).  Scalars are real; a
basis has `n + 1` functions, so that column 0 exists; values have `K` components.
-/

namespace MiniCFD.Projection

open MiniCFD.Ortho

/-- `basis::OrthoNormal`, linear.hpp:86-138: the coefficients, the Taylor values at a point (relative to the
centre) and the quadrature rule of the cell. -/
structure Basis (Pt : Type*) (n : Nat) where
  linear : Linear (n + 1)
  taylor : Pt → Row
  rule : Rule Pt

variable {Pt : Type*} {n K : Nat}

/-- The constructor, linear.hpp:99-103. -/
noncomputable def ortho (n : Nat) (taylor : Pt → Row) (rule : Rule Pt) : Basis Pt n :=
  ⟨orthoNormalize (Linear.init (n + 1)) taylor rule, taylor, rule⟩

/-- `GlobalToBasisValues`, projection.hpp:99-101 and 261-263. -/
noncomputable def basisValues (b : Basis Pt n) (p : Pt) : Fin (n + 1) → ℝ :=
  fun i => fullEval b.linear (b.taylor p) i

/-- `Coeff` and `Value`, projection.hpp:79-80. -/
abbrev Coeff (K n : Nat) := Fin K → Fin (n + 1) → ℝ
abbrev Value (K : Nat) := Fin K → ℝ

/-- `projection::Project`, projection.hpp:25-39, called by `Approximate`. -/
noncomputable def project (b : Basis Pt n) (f : Pt → Value K) : Coeff K n :=
  fun r c => integrate (fun p => f p r * basisValues b p c) b.rule

/-- `GlobalToValue`, projection.hpp:102-104. -/
noncomputable def value (b : Basis Pt n) (coeff : Coeff K n) (p : Pt) : Value K :=
  fun r => ∑ c, coeff r c * basisValues b p c

/-- `projection::GetAverage`, projection.hpp:41-47. -/
noncomputable def average (b : Basis Pt n) (coeff : Coeff K n) : Value K :=
  fun r => coeff r 0 * b.linear.coeff 0 0

/-- `GetCoeffOnTaylorBasis`, projection.hpp:124-126 and 245-247. -/
noncomputable def coeffOnTaylor (b : Basis Pt n) (coeff : Coeff K n) : Coeff K n :=
  fun r j => ∑ c, coeff r c * b.linear.coeff c j

/-- `LeftMultiply`, projection.hpp:268-272. -/
def leftMultiply (A : Matrix (Fin K) (Fin K) ℝ) (coeff : Coeff K n) : Coeff K n :=
  fun r c => ∑ k, A r k * coeff k c

/-- `operator*=(Scalar)`, projection.hpp:273-276. -/
def scale (ratio : ℝ) (coeff : Coeff K n) : Coeff K n := fun r c => coeff r c * ratio

/-- `operator/=(Scalar)`, projection.hpp:277-280; division by zero gives `none`. -/
noncomputable def divide (ratio : ℝ) (coeff : Coeff K n) : Option (Coeff K n) :=
  if ratio = 0 then none else some fun r c => coeff r c / ratio

/-- `operator*=(Value)`, projection.hpp:281-286. -/
def scaleRows (ratio : Value K) (coeff : Coeff K n) : Coeff K n := fun r c => coeff r c * ratio r

/-- `operator+=(Value)`, projection.hpp:287-291; the divisor is the reciprocal of the square root of a
volume. -/
noncomputable def shift (b : Basis Pt n) (offset : Value K) (coeff : Coeff K n) : Coeff K n :=
  fun r c => if c = 0 then coeff r 0 + offset r / b.linear.coeff 0 0 else coeff r c

/-- `operator+=(ProjectionWrapper)`, projection.hpp:292-296. -/
def plus (coeff that : Coeff K n) : Coeff K n := fun r c => coeff r c + that r c

/-! ### Storage -/

/-- `WriteCoeffTo`, projection.hpp:161-164: Eigen stores a matrix column by column, so that entry `(r, c)` is
at `c * K + r`. -/
def write (coeff : Coeff K n) : List ℝ :=
  List.ofFn fun i : Fin ((n + 1) * K) => coeff i.modNat i.divNat

/-- `GetCoeffFrom`, projection.hpp:157-160: the matrix and what is left of the input; `none` when the input
is too short. -/
noncomputable def read (K n : Nat) (input : List ℝ) : Option (Coeff K n × List ℝ) :=
  if (n + 1) * K ≤ input.length then
    some (fun r c => input.getD (c * K + r) 0, input.drop ((n + 1) * K))
  else none

/-- The values in the order of the double loops of `AddCoeffTo` and `MinusCoeff`, projection.hpp:165-180. -/
def loopOrder (coeff : Coeff K n) : List ℝ :=
  (List.finRange (n + 1)).flatMap fun c => (List.finRange K).map fun r => coeff r c

/-- The updates `*output++ op= value`; `none` when the output is too short. -/
def update (op : ℝ → ℝ → ℝ) : List ℝ → List ℝ → Option (List ℝ)
  | [], out => some out
  | _ :: _, [] => none
  | v :: vs, o :: out => (update op vs out).map (op o v :: ·)

/-- `AddCoeffTo`, projection.hpp:165-171. -/
noncomputable def addTo (coeff : Coeff K n) (output : List ℝ) : Option (List ℝ) :=
  update (· + ·) (loopOrder coeff) output

/-- `MinusCoeff`, projection.hpp:172-178. -/
noncomputable def minusTo (coeff : Coeff K n) (output : List ℝ) : Option (List ℝ) :=
  update (· - ·) (loopOrder coeff) output

end MiniCFD.Projection
