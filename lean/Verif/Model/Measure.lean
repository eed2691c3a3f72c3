import Verif.Model.Projection

/-!
# Model of `Part::MeasureL1Error`

`include/mini/mesh/part.hpp:1082-1096`, with `Projection::GetValue` (`include/mini/polynomial/projection.hpp:116-119`) for
the value of the solution at a Gaussian point of its cell.
-/

namespace MiniCFD.Measure

open MiniCFD.Projection MiniCFD.Ortho

variable {Pt : Type} {K n : Nat}

/-- The inner loop, part.hpp:1088-1093: the rule of the basis has the Gaussian points and weights of the cell. -/
noncomputable def onCell (exact : Pt → ℝ → Value K) (t : ℝ) (error : Value K) (cell : Basis Pt n × Coeff K n) : Value K :=
  cell.1.rule.foldl (fun error xw =>
    let value := Projection.value cell.1 cell.2 xw.1
    let value := value - exact xw.1 t
    let value := fun r => |value r| * xw.2
    error + value) error

/-- `MeasureL1Error`, part.hpp:1082-1096, over the cells of one process. -/
noncomputable def measure (cells : List (Basis Pt n × Coeff K n)) (exact : Pt → ℝ → Value K) (t : ℝ) : Value K :=
  cells.foldl (onCell exact t) 0

/-- `MPI_Reduce(…, MPI_SUM, 0, …)` of what the processes measured, demo/linear/single.cpp:234-235. -/
noncomputable def reduce (ranks : List (List (Basis Pt n × Coeff K n))) (exact : Pt → ℝ → Value K) (t : ℝ) : Value K :=
  (ranks.map fun cells => measure cells exact t).sum

end MiniCFD.Measure
