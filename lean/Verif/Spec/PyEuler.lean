import Verif.Model.PyEuler

namespace MiniCFD.Spec.PyEuler
open MiniCFD.PyEuler

/-- Positive density and pressure. -/
def Good (w : Prim) : Prop := 0 < w.rho ∧ 0 < w.p

/-- Total energy per volume of an ideal gas. -/
noncomputable def energy (γ : ℝ) (w : Prim) : ℝ := w.p / (γ - 1) + w.rho * w.u ^ 2 / 2

/-- Mass, momentum and energy per volume. -/
noncomputable def state (γ : ℝ) (w : Prim) : Vec := ![w.rho, w.rho * w.u, energy γ w]

/-- Mass, momentum and energy passing through a point per time. -/
noncomputable def physFlux (γ : ℝ) (w : Prim) : Vec :=
  ![w.rho * w.u, w.rho * w.u ^ 2 + w.p, w.u * (energy γ w + w.p)]

/-- Speed of sound. -/
noncomputable def sound (γ : ℝ) (w : Prim) : ℝ := √(γ * w.p / w.rho)

/-- The gas seen in a mirror. -/
def mirror (w : Prim) : Prim := ⟨w.rho, -w.u, w.p⟩

/-- How flux and state vectors change in a mirror: the flux of mass and energy and the momentum
change sign. -/
def mirrorState (U : Vec) : Vec := ![U 0, -U 1, U 2]
def mirrorFlux (F : Vec) : Vec := ![-F 0, F 1, -F 2]

end MiniCFD.Spec.PyEuler
