import Verif.Spec.Exact
import Verif.Spec.PyEuler

/-! The self-similar solution on every ray `x / t = ξ`: that on the axis, for an observer who moves at
speed `ξ`. -/

namespace MiniCFD.Spec.PyExact
open MiniCFD.PyEuler

/-- A state as seen by an observer moving at speed `ξ`. -/
def seen (ξ : ℝ) (w : Prim) : Exact.P3 := ⟨w.rho, w.u - ξ, w.p⟩

/-- `v` is the state on the ray `ξ` of the entropy solution with data `l`, `r`, whose contact has the
speed `u` and the pressure `p`. -/
def SolvesAt (γ : ℝ) (l r : Prim) (u p ξ : ℝ) (v : Prim) : Prop :=
  Spec.Exact.Solves γ (seen ξ l) (seen ξ r) (u - ξ) p (seen ξ v)

/-- `v` is the state on the ray `ξ` when `l` expands into vacuum. -/
def VacuumAt1 (γ : ℝ) (l : Prim) (ξ : ℝ) (v : Prim) : Prop :=
  Spec.Exact.IntoVacuum1 γ (seen ξ l) (seen ξ v)

/-- `v` is the state on the ray `ξ` when `r` expands into vacuum. -/
def VacuumAt3 (γ : ℝ) (r : Prim) (ξ : ℝ) (v : Prim) : Prop :=
  Spec.Exact.IntoVacuum3 γ (seen ξ r) (seen ξ v)

end MiniCFD.Spec.PyExact
