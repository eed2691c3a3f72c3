import Mathlib.LinearAlgebra.Lagrange
import Mathlib.Algebra.Polynomial.Derivative

/-! Reference objects: Mathlib's Lagrange basis polynomials and polynomials in three variables of
bounded degree in each. -/

namespace MiniCFD.Spec.Lagrange
open Polynomial

variable {K : Type*} [Field K]

/-- The `i`-th Lagrange polynomial of the given nodes. -/
noncomputable def basisPoly {N : Nat} (nodes : Fin N → K) (i : Fin N) : K[X] :=
  _root_.Lagrange.basis Finset.univ nodes i

/-- The value of the `(a,b,c)`-th partial derivative of `Σ coef p q r x^p y^q z^r` at a point. -/
noncomputable def triEval {I J L : Nat} (coef : Fin I → Fin J → Fin L → K) (a b c : Nat) (x y z : K) : K :=
  ∑ p, ∑ q, ∑ r, coef p q r * ((derivative^[a] (X ^ p.val)).eval x *
    (derivative^[b] (X ^ q.val)).eval y * (derivative^[c] (X ^ r.val)).eval z)

end MiniCFD.Spec.Lagrange
