import Verif.Model.PyFR
import Mathlib.Analysis.SpecialFunctions.Complex.Circle
import Mathlib.Algebra.Order.Floor.Ring
import Mathlib.Data.List.Sort

/-!
# Model of python/wave_number.py and python/discrete_fourier.py

Complex values are values in the real vector space `ℂ` for the schemes of `Verif.Model.PyDG` and `Verif.Model.PyFR`.
`numpy.linalg.eigvals` is not modelled: eigenvalues enter by their definition.
-/

namespace MiniCFD.PyWave
open MiniCFD.PyQuad MiniCFD.PyExpansion MiniCFD.PyDG

open scoped Classical in
/-- `riemann.LinearAdvection(a, complex)`, riemann.py:46-52 and 102-117 with equation.py:7-27; the diffusive parts are those of
concept.py:365-368 and 402-403. -/
noncomputable def advection (a : ℝ) : Physics ℂ where
  convective u := a • u
  diffusive _ du nu := nu • du
  coefficient _ := 0
  inviscid := true
  upwind l r := if 0 / 1 ≤ a then a • l else a • r

/-- The schemes of `build_scheme`, wave_number.py:25-32. -/
inductive Scheme where
  | dg
  | fr (g : PyFR.Correction)

section
variable {p n : ℕ}

/-- `set_solution_column`, spatial.py:88-97, on the elements of a periodic grid without limiter and viscosity. -/
noncomputable def setColumn (setups : Fin (n + 2) → Setup p) (column : Fin (n + 2) → Fin (p + 1) → ℂ) : Grid p n ℂ where
  cells i := ⟨setups i, setCoeff (setups i) (column i), none⟩
  boundary := none

/-- The part of `get_residual_column` that belongs to element `i`. -/
noncomputable def residual (scheme : Scheme) (ph : Physics ℂ) (grid : Grid p n ℂ) (i : Fin (n + 2)) :
    Option (Fin (p + 1) → ℂ) :=
  match scheme with
  | .dg => PyDG.residual ph grid i
  | .fr g => PyFR.residual ph (PyFR.addCorrection p g) grid i

/-- `np.exp(1j * i_element * kappa_h)`. -/
noncomputable def phase (kappa : ℝ) (i : ℕ) : ℂ := Complex.exp (Complex.I * i * kappa)

/-- The column of `matrices[i]` with index `col`, wave_number.py:41-58. -/
noncomputable def blockColumn (scheme : Scheme) (a : ℝ) (setups : Fin (n + 2) → Setup p) (kappa : ℝ) (i : Fin (n + 2))
    (col : Fin (p + 1)) : Option (Fin (p + 1) → ℂ) :=
  let uTilde : Fin (p + 1) → ℂ := fun k => if k = col then 1 else 0
  let globalColumn := fun (j : Fin (n + 2)) (k : Fin (p + 1)) => uTilde k * phase kappa j
  (residual scheme (advection a) (setColumn setups globalColumn) i).map fun r k => r k / phase kappa i

open scoped Classical in
/-- `matrices[i]`. -/
noncomputable def block (scheme : Scheme) (a : ℝ) (setups : Fin (n + 2) → Setup p) (kappa : ℝ) (i : Fin (n + 2)) :
    Option (Matrix (Fin (p + 1)) (Fin (p + 1)) ℂ) :=
  if h : ∀ col, (blockColumn scheme a setups kappa i col).isSome then
    some (Matrix.of fun k col => (blockColumn scheme a setups kappa i col).get (h col) k)
  else none

/-- `get_spatial_matrix`, wave_number.py:34-59. -/
noncomputable def spatialMatrix (scheme : Scheme) (a : ℝ) (setups : Fin (n + 2) → Setup p) (kappa : ℝ) :
    Option (Matrix (Fin (p + 1)) (Fin (p + 1)) ℂ) :=
  block scheme a setups kappa (Fin.last _)

/-- The matrix whose eigenvalues are the modified wave numbers, wave_number.py:70-71. -/
noncomputable def modifiedMatrix (scheme : Scheme) (a : ℝ) (setups : Fin (n + 2) → Setup p) (kappa : ℝ) :
    Option (Matrix (Fin (p + 1)) (Fin (p + 1)) ℂ) :=
  (spatialMatrix scheme a setups kappa).map fun m => (Complex.I * ((setups 0).coordinate.length : ℂ) / a) • m

end

/-- `while i_interval > n_term: i_interval -= n_term * 2`, wave_number.py:90-91; the loop ends for `n_term > 0`. -/
def lower (n : ℕ) (i : ℤ) : ℤ :=
  if i > n ∧ 0 < n then lower n (i - n * 2) else i
termination_by (i - n).toNat
decreasing_by omega

/-- `while i_interval <= -n_term: i_interval += n_term * 2`, wave_number.py:92-93. -/
def raise (n : ℕ) (i : ℤ) : ℤ :=
  if i ≤ -n ∧ 0 < n then raise n (i + n * 2) else i
termination_by (n - i).toNat
decreasing_by omega

/-- `i_mode`, wave_number.py:89-99, with the two assertions. -/
noncomputable def modeIndex (n : ℕ) (kappa : ℝ) : Option ℕ :=
  let i : ℤ := ⌊kappa / Real.pi⌋
  let i := raise n (lower n i)
  if -(n : ℤ) < i ∧ i ≤ n then
    let mode : ℤ := if i < 0 then -1 - i else i - (if i = n then 1 else 0)
    if 0 ≤ mode ∧ mode < n then some mode.toNat else none
  else none

open scoped Classical in
/-- `get_physical_mode` for one sample, wave_number.py:82-101. -/
noncomputable def physicalMode (eigvals : List ℂ) (kappa : ℝ) : Option ℂ :=
  let pairs := eigvals.mergeSort fun x y => x.re ^ 2 + x.im ^ 2 ≤ y.re ^ 2 + y.im ^ 2
  (modeIndex eigvals.length kappa).bind fun i => pairs[i]?

/-- `_sample_points`, discrete_fourier.py:24-29; `n + 1` is `n_sample`. -/
noncomputable def samplePoint (xLeft xRight : ℝ) (nElement perElement : ℕ) (j : ℕ) : ℝ :=
  let deltaX := (xRight - xLeft) / nElement
  let halfGap := (deltaX / perElement) / 2
  Integrator.linspace (xLeft + halfGap) (xRight - halfGap) (nElement * perElement - 1) j

/-- `get_kth_fourier_coeff`, discrete_fourier.py:31-41. -/
noncomputable def fourierCoeff (points : ℕ → ℝ) (nSample : ℕ) (k : ℤ) (u : ℝ → ℂ) : ℂ :=
  let w := Complex.exp (1 * Complex.I * 2 * Real.pi / nSample)
  (List.range nSample).foldl (fun acc j => acc + u (points j) * w ^ (-(j : ℤ) * k)) 0 / nSample

end MiniCFD.PyWave
