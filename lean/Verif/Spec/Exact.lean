import Verif.Model.Exact
import Verif.Spec.Euler

/-! The textbook solution of the one-dimensional Riemann problem, independent of the code: states
joined by shocks that satisfy the Rankine-Hugoniot and Lax conditions, or by isentropic fans. -/

namespace MiniCFD.Spec.Exact
open MiniCFD.Exact

/-- Positive density and pressure. -/
def Good (s : P3) : Prop := 0 < s.rho ∧ 0 < s.p

/-- Speed of sound. -/
noncomputable def c (γ : ℝ) (s : P3) : ℝ := Real.sqrt (γ * s.p / s.rho)

/-- Total energy per volume. -/
noncomputable def energy (γ : ℝ) (s : P3) : ℝ := s.p / (γ - 1) + s.rho * s.u ^ 2 / 2

/-- Jump conditions for mass, momentum and energy at a discontinuity of speed `S`. -/
def Jump (γ S : ℝ) (a b : P3) : Prop :=
  S * (b.rho - a.rho) = b.rho * b.u - a.rho * a.u ∧
  S * (b.rho * b.u - a.rho * a.u) = (b.rho * b.u ^ 2 + b.p) - (a.rho * a.u ^ 2 + a.p) ∧
  S * (energy γ b - energy γ a) = (energy γ b + b.p) * b.u - (energy γ a + a.p) * a.u

/-- The entropy function and the invariant of the left-running family take equal values. -/
def SameFan1 (γ : ℝ) (a b : P3) : Prop :=
  b.p / b.rho ^ γ = a.p / a.rho ^ γ ∧
    b.u + 2 / (γ - 1) * c γ b = a.u + 2 / (γ - 1) * c γ a

/-- The entropy function and the invariant of the right-running family take equal values. -/
def SameFan3 (γ : ℝ) (a b : P3) : Prop :=
  b.p / b.rho ^ γ = a.p / a.rho ^ γ ∧
    b.u - 2 / (γ - 1) * c γ b = a.u - 2 / (γ - 1) * c γ a

/-- `v` is the state on the ray `x = 0` of a left-running wave with `l` on its left and `s` on its
right. -/
def Wave1 (γ : ℝ) (l s v : P3) : Prop :=
  (l.p ≤ s.p ∧ ∃ S, Jump γ S l s ∧ S ≤ l.u - c γ l ∧ s.u - c γ s ≤ S ∧
    (0 < S → v = l) ∧ (S < 0 → v = s) ∧ (S = 0 → v = l ∨ v = s)) ∨
  (s.p < l.p ∧ SameFan1 γ l s ∧ l.u - c γ l < s.u - c γ s ∧
    (0 < l.u - c γ l → v = l) ∧ (s.u - c γ s < 0 → v = s) ∧
    (l.u - c γ l ≤ 0 → 0 ≤ s.u - c γ s → SameFan1 γ l v ∧ v.u = c γ v))

/-- `v` is the state on the ray `x = 0` of a right-running wave with `s` on its left and `r` on its
right. -/
def Wave3 (γ : ℝ) (s r v : P3) : Prop :=
  (r.p ≤ s.p ∧ ∃ S, Jump γ S s r ∧ r.u + c γ r ≤ S ∧ S ≤ s.u + c γ s ∧
    (S < 0 → v = r) ∧ (0 < S → v = s) ∧ (S = 0 → v = r ∨ v = s)) ∨
  (s.p < r.p ∧ SameFan3 γ r s ∧ s.u + c γ s < r.u + c γ r ∧
    (r.u + c γ r < 0 → v = r) ∧ (0 < s.u + c γ s → v = s) ∧
    (s.u + c γ s ≤ 0 → 0 ≤ r.u + c γ r → SameFan3 γ r v ∧ v.u = -c γ v))

/-- `v` is the state at `x = 0` of the self-similar solution with `l` on the left, `r` on the right
and a contact of speed `u` and pressure `p` between the two acoustic waves. -/
def Solves (γ : ℝ) (l r : P3) (u p : ℝ) (v : P3) : Prop :=
  ∃ sl sr : P3, Good sl ∧ Good sr ∧ sl.u = u ∧ sr.u = u ∧ sl.p = p ∧ sr.p = p ∧
    (∃ v1, Wave1 γ l sl v1 ∧ (0 < u → v = v1)) ∧
    (∃ v3, Wave3 γ sr r v3 ∧ (u ≤ 0 → v = v3))

/-- `v` is the state at `x = 0` when the gas `l` on the left expands into vacuum and the ray
`x = 0` is not reached by anything from the right. -/
def IntoVacuum1 (γ : ℝ) (l v : P3) : Prop :=
  (0 < l.u - c γ l → v = l) ∧
  (l.u - c γ l ≤ 0 → 0 < l.u + 2 / (γ - 1) * c γ l → Good v ∧ SameFan1 γ l v ∧ v.u = c γ v)

/-- Same for gas `r` on the right. -/
def IntoVacuum3 (γ : ℝ) (r v : P3) : Prop :=
  (r.u + c γ r < 0 → v = r) ∧
  (0 ≤ r.u + c γ r → r.u - 2 / (γ - 1) * c γ r < 0 → Good v ∧ SameFan3 γ r v ∧ v.u = -c γ v)

/-- The flux of a one-dimensional state. -/
noncomputable def flux3 (γ : ℝ) (s : P3) : ℝ × ℝ × ℝ :=
  (s.rho * s.u, s.rho * s.u ^ 2 + s.p, (energy γ s + s.p) * s.u)

/-- Mirror image. -/
def mir (s : P3) : P3 := { s with u := -s.u }

end MiniCFD.Spec.Exact
