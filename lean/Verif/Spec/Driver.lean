import Verif.Model.Driver
import Verif.Model.Parallel
import Mathlib.Algebra.BigOperators.Group.Finset.Basic
import Mathlib.Data.Real.Basic

/-! Spec for C79, C80, C81: a run is a sequence of states at equidistant times, and its frames are every so-manieth of them. -/

namespace MiniCFD.Spec.Driver

variable {F V : Type*} [Field F]

/-- The state after `m` steps of size `dt` from time `t`. -/
def after (step : F → V → V) (t dt : F) (u : V) : Nat → V
  | 0 => u
  | m + 1 => step (t + dt * (m : F)) (after step t dt u m)

/-- The time of the `j`-th of `n` frames between two times. -/
def frameTime (t0 t1 : F) (n j : Nat) : F := t0 + (t1 - t0) * (j : F) / (n : F)

/-- The weights of the stages of a step. -/
def weights : RK.Stepper → List F
  | .rk1 => [1]
  | .rk2 => [1 / 2, 1 / 2]
  | .rk3 => [1 / 6, 1 / 6, 2 / 3]

/-- The times of the stages of a step of size `dt` from `t`. -/
def stageTimes (t dt : F) : RK.Stepper → List F
  | .rk1 => [t]
  | .rk2 => [t, t + dt]
  | .rk3 => [t, t + dt, t + dt / 2]

/-- The integral of the solution over the mesh: `m p i` is the integral of basis function `i` over cell `p`. -/
noncomputable def inventory {K n N : Nat} (m : Fin N → Fin (n + 1) → ℝ) (u : Fin N → Projection.Coeff K n) (r : Fin K) :
    ℝ := ∑ p, ∑ i, m p i * u p r i

end MiniCFD.Spec.Driver
