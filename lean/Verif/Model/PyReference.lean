import Verif.Model.PyQuad
import Mathlib.Analysis.SpecialFunctions.Trigonometric.Basic
import Mathlib.Analysis.SpecialFunctions.Exp
import Mathlib.Data.Sign.Basic

/-!
# Model of the reference solutions of python/solver.py and of the errors measured against them

Numbers are reals.  `nan`, and a loop that does not end, are `none`.
-/

namespace MiniCFD.PyReference
open MiniCFD.PyQuad

/-- `_wave_number`, solver.py:305-306 and 358-359. -/
noncomputable def waveNumber (k : ℤ) (length : ℝ) : ℝ := k * Real.pi * 2 / length

/-- The attributes of `LinearSmooth` and `LinearJumps`, solver.py:299-306 and 330-333: `omega` is `_wave_number`, `a` is
`_a_const`, `b` is `_b_const`. -/
structure Linear where
  mean : ℝ
  omega : ℝ
  xLeft : ℝ
  a : ℝ
  b : ℝ

/-- `LinearSmooth.u_init`, solver.py:316-319. -/
noncomputable def Linear.smooth (s : Linear) (x : ℝ) : ℝ :=
  let x := x - s.xLeft
  let value := Real.sin (x * s.omega)
  value + s.mean

/-- `LinearJumps.u_init`, solver.py:335-338. -/
noncomputable def Linear.jumps (s : Linear) (x : ℝ) : ℝ :=
  let x := x - s.xLeft
  let value := Real.sin (x * s.omega)
  ((SignType.sign value : SignType) : ℝ) + s.mean

/-- `LinearSmooth.u_exact`, solver.py:321-323, inherited by `LinearJumps`. -/
noncomputable def Linear.exact (s : Linear) (init : ℝ → ℝ) (x t : ℝ) : ℝ :=
  let ratio := Real.exp (-t * s.b * s.omega ^ 2)
  ratio * init (x - s.a * t)

/-- The attributes of `InviscidBurgers`, solver.py:354-360: `k` is the factor of the equation, whose `get_convective_speed`
is `k * u` (equation.py:68-69). -/
structure Burgers where
  mean : ℝ
  omega : ℝ
  xLeft : ℝ
  k : ℝ

/-- `u_init`, solver.py:370-373. -/
noncomputable def Burgers.init (s : Burgers) (x : ℝ) : ℝ :=
  let x := x - s.xLeft
  let value := Real.sin (x * s.omega)
  value + s.mean

/-- `_u_prev`. -/
abbrev Cache := ℝ → Option ℝ

/-- `u_prev`, solver.py:389-392. -/
noncomputable def Burgers.start (s : Burgers) (prev : Cache) (x : ℝ) : ℝ :=
  match prev x with
  | some u => u
  | none => s.init x

open scoped Classical in
/-- The loop of solver.py:394-398: the bracket that is found, if the loop ends. -/
noncomputable def bracket (func : ℝ → ℝ) (start delta : ℝ) : Option (ℝ × ℝ) :=
  let uMin := fun n : ℕ => start - delta - n * delta
  let uMax := fun n : ℕ => start + delta + n * delta
  if h : ∃ n, ¬func (uMin n) * func (uMax n) > 0 then some (uMin (Nat.find h), uMax (Nat.find h)) else none

open scoped Classical in
/-- `u_exact`, solver.py:375-401, and what it leaves in the dictionary; `bisect` is `scipy.optimize.bisect`. -/
noncomputable def Burgers.exact (bisect : (ℝ → ℝ) → ℝ → ℝ → ℝ) (s : Burgers) (prev : Cache) (x t : ℝ) : Option (ℝ × Cache) :=
  if s.mean ≠ 0 then none
  else
    let func := fun u =>
      let ku := s.k * u
      u - s.init (x - ku * t)
    (bracket func (s.start prev x) (2 / 100)).map fun (uMin, uMax) =>
      let root := bisect func uMin uMax
      (root, Function.update prev x (some root))

open scoped Classical in
/-- `ShockTube.u_init`, solver.py:419-423. -/
noncomputable def tubeInit {V : Type*} (mid : ℝ) (left right : V) (x : ℝ) : V := if x < mid then left else right

open scoped Classical in
/-- `ShockTube.u_exact`, solver.py:425-427, with `get_value`, riemann.py:32-39; `similar` is `_get_value`. -/
noncomputable def tubeExact {V : Type*} (similar : ℝ → V) (mid : ℝ) (left right : V) (x t : ℝ) : V :=
  let x := x - mid
  if t = 0 then (if x ≤ 0 then left else right) else similar (x / t)

/-- `_measure_errors`, solver.py:98-112, of a scalar equation: an element is its integrator with `m + 1` points and the
function `get_solution_value`; `n + 1` is `n_term()`,
`reference` is `u_exact(·, t_curr)`.  The dictionary that `InviscidBurgers.u_exact` updates between the calls is left out. -/
noncomputable def measureErrors {m : ℕ} (n : ℕ) (elements : List (Integrator m × (ℝ → ℝ))) (reference : ℝ → ℝ) : ℝ × ℝ × ℝ :=
  let (e1, e2, e8) := elements.foldl (fun (acc : ℝ × ℝ × ℝ) e =>
    let error := fun x => reference x - e.2 x
    (acc.1 + e.1.norm1 error, acc.2.1 + e.1.norm2 error ^ 2, max acc.2.2 (e.1.normInfty error (2 * (n + 1) - 1)))) (0, 0, 0)
  (e1, √e2, e8)

end MiniCFD.PyReference
