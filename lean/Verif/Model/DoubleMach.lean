import Verif.Model.Euler

/-!
# Model of the data of the double Mach reflection

`demo/euler/double_mach.cpp:4-31`.
-/

namespace MiniCFD.DoubleMach

open MiniCFD.Euler

/-- The constants of lines 5-7 and 19. -/
structure Data where
  plus : ℝ
  gamma : ℝ
  minus : ℝ
  rho : ℝ
  p : ℝ
  m : ℝ
  a : ℝ
  gap : ℝ

/-- The literals, double_mach.cpp:5-7, 19. -/
noncomputable def demo : Data := ⟨24 / 10, 14 / 10, 4 / 10, 14 / 10, 1, 10, 1, 1 / 6⟩

namespace Data

variable (D : Data)

/-- `u_nu`, double_mach.cpp:7. -/
noncomputable def speed : ℝ := D.m * D.a

/-- `rho_after`, double_mach.cpp:8-9. -/
noncomputable def rhoAfter : ℝ := D.rho * (D.m * D.m * D.plus / 2) / (1 + D.m * D.m * D.minus / 2)

/-- `p_after`, double_mach.cpp:10-11. -/
noncomputable def pAfter : ℝ := D.p * (D.m * D.m * D.gamma - D.minus / 2) / (D.plus / 2)

/-- `u_n_after`, double_mach.cpp:12. -/
noncomputable def uAfter : ℝ := D.speed * (D.rhoAfter - D.rho) / D.rhoAfter

end Data

/-- `tan_60`, double_mach.cpp:13. -/
noncomputable def tan60 : ℝ := √3

/-- `cos_30`, double_mach.cpp:13. -/
noncomputable def cos30 : ℝ := tan60 * (1 / 2)

/-- `sin_30`, double_mach.cpp:13. -/
noncomputable def sin30 : ℝ := 1 / 2

namespace Data

variable (D : Data)

/-- `primitive_after`, double_mach.cpp:14-15. -/
noncomputable def primAfter : Tup 2 := ⟨D.rhoAfter, ![D.uAfter * cos30, D.uAfter * -sin30, 0], D.pAfter⟩

/-- `primitive_before`, double_mach.cpp:16. -/
noncomputable def primBefore : Tup 2 := ⟨D.rho, ![0, 0, 0], D.p⟩

/-- `value_after`, double_mach.cpp:17. -/
noncomputable def after : Tup 2 := toCons D.gamma D.primAfter

/-- `value_before`, double_mach.cpp:18. -/
noncomputable def before : Tup 2 := toCons D.gamma D.primBefore

/-- `MyIC`, double_mach.cpp:21-24. -/
noncomputable def initial (x : Fin 3 → ℝ) : Tup 2 := if (x 0 - D.gap) * tan60 < x 1 then D.after else D.before

/-- `u_x`, double_mach.cpp:27. -/
noncomputable def slip : ℝ := D.speed / cos30

/-- `moving_shock`, double_mach.cpp:28-31. -/
noncomputable def moving (x : Fin 3 → ℝ) (t : ℝ) : Tup 2 :=
  if (x 0 - (D.gap + D.slip * t)) * tan60 < x 1 then D.after else D.before

end Data

end MiniCFD.DoubleMach
