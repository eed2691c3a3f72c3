import Verif.Model.Simple

/-!
# Model of the reference solution of a linear system

`demo/linear/multiple.cpp:71-122`.
-/

namespace MiniCFD.Waves

open Matrix

variable {K : Nat}

/-- `initial_condition`, demo/linear/multiple.cpp:105-108: only the first coordinate matters. -/
noncomputable def initial (x0 : ℝ) (left right : Fin K → ℝ) (x : ℝ) : Fin K → ℝ := if x > x0 then right else left

/-- `exact_solution`, demo/linear/multiple.cpp:114-121: `rows` and `vals` come from `Eigen::EigenSolver`, `cols` is the
inverse of `rows` (lines 110-113); `cols.col(i)` and `rows.row(i)` are multiplied. -/
noncomputable def exact (rows cols : Matrix (Fin K) (Fin K) ℝ) (vals : Fin K → ℝ) (x0 : ℝ) (left right : Fin K → ℝ)
    (x t : ℝ) : Fin K → ℝ :=
  (List.finRange K).foldl (fun value i =>
    value + (rows i ⬝ᵥ if x - x0 > vals i * t then right else left) • fun j => cols j i) 0

/-- `a_x`, demo/linear/multiple.cpp:71. -/
noncomputable def demo : Matrix (Fin 2) (Fin 2) ℝ := !![6, -2; -2, 6]

/-- `value_right`, demo/linear/multiple.cpp:104. -/
noncomputable def demoRight : Fin 2 → ℝ := ![12, -4]

/-- `value_left`, demo/linear/multiple.cpp:104. -/
noncomputable def demoLeft : Fin 2 → ℝ := ![0, 0]

end MiniCFD.Waves
