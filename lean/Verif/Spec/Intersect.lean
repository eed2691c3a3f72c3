import Mathlib.Algebra.Order.Field.Basic

/-! # When a segment meets a triangle -/

namespace MiniCFD.Spec.Intersect

variable {K : Type*} [Field K] [LinearOrder K] [IsStrictOrderedRing K]

/-- The point `r` of the way from the origin to `q` belongs to the triangle `a b c`. -/
def MeetsAt (a b c q : Fin 3 → K) (r : K) : Prop :=
  0 ≤ r ∧ r ≤ 1 ∧ ∃ u v w : K, 0 ≤ u ∧ 0 ≤ v ∧ 0 ≤ w ∧ u + v + w = 1 ∧
    ∀ i, r * q i = u * a i + v * b i + w * c i

end MiniCFD.Spec.Intersect
