import Mathlib.Data.Real.Basic

/-!
# Model of the correction functions of Vincent

Covers `include/mini/basis/vincent.hpp`.  Scalars are real numbers.  `std::legendre` of the standard
library is modelled by the three-term recurrence that its definition satisfies.
-/

namespace MiniCFD.Vincent

/-- `std::legendre(n, x)`: the Legendre polynomial by Bonnet's recurrence. -/
noncomputable def legendre : Nat → ℝ → ℝ
  | 0, _ => 1
  | 1, x => x
  | n + 2, x => ((2 * n + 3) * x * legendre (n + 1) x - (n + 1) * legendre n x) / (n + 2)

/-- The data members, vincent.hpp:20-21. -/
structure Vincent where
  c_prev : ℝ
  c_next : ℝ
  degree : Nat

/-- `DiscontinuousGalerkin`, vincent.hpp:24-26. -/
noncomputable def discontinuousGalerkin (_degree : Nat) : ℝ := 1

/-- `HuynhLumpingLobatto`, vincent.hpp:27-29. -/
noncomputable def huynhLumpingLobatto (degree : Nat) : ℝ := degree / (2 * degree + 1)

/-- The constructor, vincent.hpp:37-40; `degree > 0` is asserted. -/
noncomputable def mk' (degree : Nat) (c_next : ℝ) : Vincent := ⟨1 - c_next, c_next, degree⟩

/-- `LocalToRightValue`, vincent.hpp:48-54; `degree - 1` is an ordinary subtraction thanks to the
assertion of the constructor. -/
noncomputable def rightValue (v : Vincent) (x : ℝ) : ℝ :=
  let value := legendre v.degree x
  let value := value + v.c_prev * legendre (v.degree - 1) x
  let value := value + v.c_next * legendre (v.degree + 1) x
  value * 0.5

/-- `LocalToLeftValue`, vincent.hpp:61-63. -/
noncomputable def leftValue (v : Vincent) (x : ℝ) : ℝ := rightValue v (-x)

/-- The three local variables of `LocalToRightDerivative`. -/
structure Window where
  prev : ℝ
  curr : ℝ
  next : ℝ

/-- One pass of the loop, vincent.hpp:76-82. -/
noncomputable def pass (x : ℝ) (w : Window) (k : Nat) : Window :=
  let w := if k > 0 then { w with prev := w.curr, curr := w.next } else w
  let k_next := k + 1
  { w with next := (k_next : ℝ) * legendre k x + x * w.curr }

/-- `LocalToRightDerivative`, vincent.hpp:71-87. -/
noncomputable def rightDerivative (v : Vincent) (x : ℝ) : ℝ :=
  let w := (List.range (v.degree + 1)).foldl (pass x) ⟨0, 0, 0⟩
  0.5 * (w.curr + v.c_prev * w.prev + v.c_next * w.next)

/-- `LocalToLeftDerivative`, vincent.hpp:95-97. -/
noncomputable def leftDerivative (v : Vincent) (x : ℝ) : ℝ := -rightDerivative v (-x)

end MiniCFD.Vincent
