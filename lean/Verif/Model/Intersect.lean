import Mathlib.Algebra.Order.Field.Basic
import Mathlib.Data.Fin.VecNotation

/-!
# Model of the intersection of a segment with a triangle

Covers `include/mini/geometry/intersect.hpp`.  All points are given relative to the first end `P` of
the segment, as in the code.  `mat.fullPivLu().solve(b)` is a parameter: what is known about it is
stated as a hypothesis where needed.
-/

namespace MiniCFD.Intersect

variable {K : Type*} [Field K] [LinearOrder K] [IsStrictOrderedRing K]

/-- A point in space. -/
abbrev Point (K : Type*) := Fin 3 → K

/-- A matrix by its three columns. -/
abbrev Columns (K : Type*) := Fin 3 → Point K

/-- `mat.determinant()`. -/
def determinant (m : Columns K) : K :=
  m 0 0 * (m 1 1 * m 2 2 - m 2 1 * m 1 2) - m 1 0 * (m 0 1 * m 2 2 - m 2 1 * m 0 2) +
    m 2 0 * (m 0 1 * m 1 2 - m 1 1 * m 0 2)

/-- `mat * lambda`. -/
def times (m : Columns K) (l : Point K) : Point K := fun i => l 0 * m 0 i + l 1 * m 1 i + l 2 * m 2 i

/-- The matrix and the flag after the first branch, intersect.hpp:15-29. -/
def prepare (pa pb pc pq : Point K) : Columns K × Bool :=
  let mat : Columns K := ![pa, pb, pc]
  if determinant mat = 0 then
    let mat : Columns K := fun j i => mat j i - pq i
    if determinant mat = 0 then (mat, false) else (mat, true)
  else (mat, false)

/-- `Intersect`, intersect.hpp:13-42: the value of `*ratio` afterwards, given the one before. -/
def intersect (solve : Columns K → Point K → Point K) (pa pb pc pq : Point K) (ratio : K) : K :=
  let (mat, swap) := prepare pa pb pc pq
  let lambda := solve mat pq
  let lambda : Point K := if swap then fun i => -lambda i else lambda
  if 0 ≤ lambda 0 ∧ 0 ≤ lambda 1 ∧ 0 ≤ lambda 2 then
    let sum := lambda 0 + lambda 1 + lambda 2
    if 1 ≤ sum then (if swap then sum - 1 else 1) / sum else ratio
  else ratio

end MiniCFD.Intersect
