import Verif.Model.PyDG
import Verif.Model.PyScalar

/-! # Model of the discontinuous Galerkin schemes for scalar equations -/

namespace MiniCFD.PyEnergy
open MiniCFD.PyQuad MiniCFD.PyExpansion MiniCFD.PyDG

open scoped Classical in
/-- What a scheme sees of a scalar Riemann solver.  `inviscid()` is `True` for `LinearAdvection` and
`InviscidBurgers` and `b == 0` for `LinearAdvectionDiffusion` (equation.py:26-27, 47-48, 71-72):
in all cases it tells whether the coefficient is zero. -/
noncomputable def physics (s : PyScalar.Solver) : Physics ℝ where
  convective := s.eq.flux
  diffusive := s.eq.diffusiveFlux
  coefficient := s.eq.coeff
  inviscid := decide (s.eq.coeff 0 = 0)
  upwind := s.upwindFlux

variable {p n : Nat}

/-- The periodic grid without extra viscosity that `set_solution_column` makes of coefficients,
spatial.py:88-97 (no limiter). -/
noncomputable def grid (setup : Fin (n + 2) → Setup p) (coeff : Fin (n + 2) → Fin (p + 1) → ℝ) : Grid p n ℝ where
  cells i := ⟨setup i, setCoeff (setup i) (coeff i), none⟩
  boundary := none

/-- Half the sum of `_integrator.fixed_quad_global(u^2)` over the elements. -/
noncomputable def energy (g : Grid p n ℝ) : ℝ :=
  ∑ i, (g.cells i).setup.integrator.integrate (fun x => (g.cells i).setup.value (g.cells i).state x ^ 2) / 2

end MiniCFD.PyEnergy
