import Mathlib.Analysis.Real.Sqrt
import Mathlib.Data.Matrix.Mul
import Mathlib.Data.Fin.VecNotation
import Mathlib.LinearAlgebra.Matrix.Notation

/-!
# Model of the one-dimensional Euler equations of the Python code and their approximate solvers

Covers `equation.Euler` (python/equation.py:167-297), `gas.Ideal` (python/gas.py:4-51) as it uses it,
`to_characteristics`/`from_characteristics` (python/concept.py:435-441), `riemann.Roe` and
`riemann.LaxFriedrichs` (python/riemann.py:388-462).  `none` stands for a failed assertion or for a
division by zero (which numpy answers by `nan`).  Rounding is not modelled.
-/

namespace MiniCFD.PyEuler

abbrev Vec := Fin 3 → ℝ
abbrev Mat := Matrix (Fin 3) (Fin 3) ℝ

/-- Primitive variables `rho, u, p` as they are passed around. -/
structure Prim where
  rho : ℝ
  u : ℝ
  p : ℝ

/-- `primitive_to_conservative`, equation.py:182-186. -/
noncomputable def toCons (γ : ℝ) (w : Prim) : Vec :=
  ![w.rho, w.rho * w.u, w.u * (w.rho * w.u) / 2 + w.p / (γ - 1)]

open scoped Classical in
/-- `conservative_to_primitive`, equation.py:188-198. -/
noncomputable def toPrim (γ : ℝ) (U : Vec) : Option Prim :=
  let fin (u : ℝ) : Option Prim :=
    let p := (U 2 - u * U 1 / 2) * (γ - 1)
    if 0 ≤ U 0 ∧ 0 ≤ p then some ⟨U 0, u, p⟩ else none
  if U 0 = 0 then
    if U 1 = 0 ∧ U 2 = 0 then fin 0 else none
  else fin (U 1 / U 0)

/-- `primitive_to_total_enthalpy`, equation.py:200-203. -/
noncomputable def enthalpy (γ : ℝ) (w : Prim) : ℝ :=
  let aa := γ * w.p / w.rho
  let h := aa / (γ - 1)
  h + w.u * w.u / 2

/-- `get_convective_flux`, equation.py:230-235. -/
noncomputable def flux (γ : ℝ) (U : Vec) : Option Vec :=
  (toPrim γ U).map fun w => ![U 0 * w.u, U 1 * w.u + w.p, U 2 * w.u + w.p * w.u]

open scoped Classical in
/-- `get_convective_jacobian`, equation.py:237-250. -/
noncomputable def jacobian (γ : ℝ) (U : Vec) : Option Mat :=
  if U 0 = 0 then none
  else
    let u := U 1 / U 0
    let uu := u ^ 2
    let ek := uu / 2
    let ge := U 2 / U 0 * γ
    some !![0, 1, 0;
      ek * (γ - 3), -u * (γ - 3), γ - 1;
      u * (uu * (γ - 1) - ge), ge - 3 * ek * (γ - 1), u * γ]

open scoped Classical in
/-- `get_convective_eigvals`, equation.py:252-255. -/
noncomputable def eigvals (γ : ℝ) (U : Vec) : Option Vec :=
  (toPrim γ U).bind fun w =>
    if w.rho = 0 then none
    else
      let a := √(γ * w.p / w.rho)
      some ![w.u - a, w.u, w.u + a]

/-- `EquationSystem.get_convective_radius`, concept.py:425-427. -/
noncomputable def radius (γ : ℝ) (U : Vec) : Option ℝ :=
  (eigvals γ U).map fun l => max (max |l 0| |l 1|) |l 2|

open scoped Classical in
/-- `get_convective_eigmats`, equation.py:257-286: the left and the right matrix. -/
noncomputable def eigmats (γ : ℝ) (U : Vec) : Option (Mat × Mat) :=
  (toPrim γ U).bind fun w =>
    let aa := γ * w.p / w.rho
    if w.rho = 0 ∨ aa = 0 then none
    else
      let u := w.u
      let a := √aa
      let ua := u * a
      let ke := 1 / 2 * u * u
      let h0 := aa / (γ - 1) + ke
      let right : Mat := !![1, 1, 1; u - a, u, u + a; h0 - ua, ke, h0 + ua]
      let b1 := (γ - 1) / aa
      let b2 := b1 * ke
      let left : Mat := !![(b2 + u / a) / 2, -(b1 * u + 1 / a) / 2, b1 / 2;
        1 - b2, b1 * u, -b1;
        (b2 - u / a) / 2, -(b1 * u - 1 / a) / 2, b1 / 2]
      some (left, right)

open Matrix in
/-- `to_characteristics`, concept.py:435-437. -/
noncomputable def toChar (γ : ℝ) (U : Vec) : Option Vec := (eigmats γ U).map fun m => m.1 *ᵥ U

open Matrix in
/-- `from_characteristics`, concept.py:439-441: the matrix is that of the argument. -/
noncomputable def fromChar (γ : ℝ) (V : Vec) : Option Vec := (eigmats γ V).map fun m => m.2 *ᵥ V

/-- `Ideal.get_heat_flux`, gas.py:44-51. -/
noncomputable def heatFlux (γ : ℝ) (w : Prim) (dRho du dE mu pr : ℝ) : ℝ :=
  let dKin := dRho * w.u * w.u / 2 + w.rho * w.u * du
  let temp := w.p / w.rho * dRho * (1 / (γ - 1))
  let temp := (dE - dKin - temp) / w.rho
  let k := -mu / pr * γ
  k * temp

open scoped Classical in
/-- `_get_diffusive_flux`, equation.py:205-213. -/
noncomputable def scalarDiffusion (γ : ℝ) (U dU : Vec) (nu pr : ℝ) : Option Vec :=
  (toPrim γ U).bind fun w =>
    if w.rho = 0 then none
    else
      let du := (dU 1 - w.u * dU 0) / w.rho
      let mu := w.rho * nu
      let tau := 4 / 3 * mu * du
      let q := heatFlux γ w (dU 0) du (dU 2) mu pr
      some ![0, tau, tau * w.u - q]

/-- `_get_matrix_nu`, equation.py:215-220. -/
noncomputable def matrixNu (γ : ℝ) (U nu : Vec) : Option Mat :=
  (eigmats γ U).map fun m =>
    Matrix.of fun i j => ((0 + m.2 i 0 * (nu 0 * m.1 0 j)) + m.2 i 1 * (nu 1 * m.1 1 j)) +
      m.2 i 2 * (nu 2 * m.1 2 j)

open Matrix in
/-- `get_diffusive_flux`, equation.py:222-228, for a vector of viscosities. -/
noncomputable def vectorDiffusion (γ : ℝ) (U dU nu : Vec) : Option Vec :=
  (matrixNu γ U nu).map fun B => B *ᵥ dU

/-- The averages and waves of `Roe.get_upwind_flux`, riemann.py:415-440. -/
structure RoeData where
  /-- `rho`, the geometric mean -/
  rho : ℝ
  u : ℝ
  ke : ℝ
  h0 : ℝ
  aa : ℝ
  a : ℝ
  /-- the three values of `alpha` -/
  alpha : Vec
  /-- `_roe_average` -/
  average : Vec

/-- Lines 415-438 of riemann.py. -/
noncomputable def roeData (γ : ℝ) (l r : Prim) : RoeData :=
  let h0l := enthalpy γ l
  let h0r := enthalpy γ r
  let sl := √l.rho
  let sr := √r.rho
  let sum := sl + sr
  let av0 := sum ^ 2 / 4
  let rho := sl * sr
  let u := (sl * l.u + sr * r.u) / sum
  let av1 := av0 * u
  let ke := u * u / 2
  let h0 := (sl * h0l + sr * h0r) / sum
  let aa := (γ - 1) * (h0 - ke)
  let av2 := av0 * (h0 - aa / γ)
  let a := √aa
  let pj := r.p - l.p
  let uj := r.u - l.u
  { rho, u, ke, h0, aa, a
    alpha := ![(pj - rho * a * uj) / (2 * aa), (r.rho - l.rho) - pj / aa,
      (pj + rho * a * uj) / (2 * aa)]
    average := ![av0, av1, av2] }

/-- The three vectors by which the waves are multiplied, riemann.py:432-440. -/
noncomputable def RoeData.wave (d : RoeData) : Fin 3 → Vec :=
  ![![1, d.u - d.a, d.h0 - d.u * d.a], ![1, d.u, d.ke], ![1, d.u + d.a, d.h0 + d.u * d.a]]

/-- The speeds whose absolute values appear in riemann.py:431-439. -/
noncomputable def RoeData.speed (d : RoeData) : Vec := ![d.u - d.a, d.u, d.u + d.a]

open scoped Classical in
/-- `Roe.get_upwind_flux`, riemann.py:403-440; `none` also for a vanishing density or a non-positive
`aa` (division by zero, root of a negative number). -/
noncomputable def roe (γ : ℝ) (left right : Vec) : Option Vec :=
  (flux γ left).bind fun fl => (flux γ right).bind fun fr =>
    (toPrim γ left).bind fun l => (toPrim γ right).bind fun r =>
      let d := roeData γ l r
      if l.rho = 0 ∨ r.rho = 0 ∨ d.aa ≤ 0 then none
      else
        let f : Vec := fun i => (fl i + fr i) / 2
        let f : Vec := fun i => f i - 1 / 2 * d.alpha 0 * |d.u - d.a| * d.wave 0 i
        let f : Vec := fun i => f i - 1 / 2 * d.alpha 1 * |d.u| * d.wave 1 i
        let f : Vec := fun i => f i - 1 / 2 * d.alpha 2 * |d.u + d.a| * d.wave 2 i
        some f

/-- `LaxFriedrichs.get_upwind_flux`, riemann.py:451-462. -/
noncomputable def laxFriedrichs (γ : ℝ) (left right : Vec) : Option Vec :=
  (flux γ right).bind fun fr => (flux γ left).bind fun fl =>
    (eigvals γ left).bind fun ll => (eigvals γ right).map fun lr =>
      let f : Vec := fun i => (fr i + fl i) / 2
      let m := max |ll 0| |ll 2|
      let m := max (max m |lr 0|) |lr 2|
      fun i => f i - m / 2 * (right i - left i)

/-- `get_upwind_value`, concept.py:467-472, of `LaxFriedrichs`: `get_value` ends in the `assert
False` of `ApproximateEuler._get_value` (riemann.py:393-394).  `Interface.solve` and `Inlet.solve`
(concept.py:844-848, 862-870) call it after every flux. -/
def laxUpwindValue : Option Vec := none

/-- `Roe.get_upwind_value`, riemann.py:442-443, after `get_upwind_flux(left, right)`. -/
noncomputable def roeUpwindValue (γ : ℝ) (left right : Vec) : Option Vec :=
  (toPrim γ left).bind fun l => (toPrim γ right).map fun r => (roeData γ l r).average

end MiniCFD.PyEuler
