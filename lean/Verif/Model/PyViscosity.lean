import Verif.Model.PyDissipation
import Verif.Model.PyLimiter
import Verif.Model.PyDetector
import Mathlib.Analysis.SpecialFunctions.Log.Base
import Mathlib.Analysis.SpecialFunctions.Trigonometric.Basic
import Mathlib.LinearAlgebra.Matrix.NonsingularInverse
import Mathlib.LinearAlgebra.Matrix.Notation

/-!
# Model of python/viscosity.py, and of the parts of python/concept.py that hand the artificial viscosity to the elements

Elements and grids as in `Verif.Model.PyFR`, neighbours as in `Verif.Model.PyLimiter`.  A dictionary whose keys are
indices of elements is a function to `Option`.  A call that raises is `none`.
-/

namespace MiniCFD.PyViscosity
open MiniCFD.PyQuad MiniCFD.PyExpansion MiniCFD.PyDG MiniCFD.PyFR MiniCFD.PyLimiter MiniCFD.PyDissipation

/-! ## Handing the viscosity to the elements -/

/-- What an entry of `_index_to_coeff`, hence the attribute `_extra_viscosity` of an element, may be.  `other` stands for a
value that is neither callable nor a `float`, and whose truth value is given: an `int`, for instance. -/
inductive Extra where
  | callable (f : ℝ → ℝ)
  | float (c : ℝ)
  | other (truthy : Bool)

/-- `_index_to_coeff`, `_index_to_nu`. -/
abbrev Dict (α : Type*) := Nat → Option α

/-- `for i in indices: d[i] = f(i)`, viscosity.py:25-28, 64-66, 351-356. -/
def fill {α : Type*} (f : Nat → Option α) : List Nat → Dict α → Option (Dict α)
  | [], d => some d
  | i :: is, d => (f i).bind fun a => fill f is (Function.update d i (some a))

/-- `Constant.generate` and `Persson2006.generate`, viscosity.py:23-28 and 62-66: the dictionary is cleared first. -/
def generate {α : Type*} (f : Nat → Option α) (indices : List Nat) (_old : Dict α) : Option (Dict α) :=
  fill f indices fun _ => none

/-- `get_cell_viscosity`, concept.py:1014-1021; indices are not negative here. -/
def getCellViscosity {α : Type*} (d : Dict α) (i : Nat) : Option α := d i

/-- The parts of a spatial scheme that `apply_viscosity` works with: the indices that the detector reports, if there is a
detector and if it does not raise; the object `_viscosity`, if there is one, by what its `generate` makes of the indices
and of what it stored before; what it stored; and the attributes `_extra_viscosity`. -/
structure Scheme where
  detector : Option (Option (List Nat))
  viscosity : Option (List Nat → Dict Extra → Option (Dict Extra))
  stored : Dict Extra
  count : Nat
  extra : Nat → Option Extra

/-- `apply_viscosity`, concept.py:1135-1141. -/
def applyViscosity (sc : Scheme) : Option Scheme :=
  match sc.detector, sc.viscosity with
  | some report, some gen =>
    report.bind fun indices => (gen indices sc.stored).map fun d =>
      { sc with stored := d, extra := fun i => if i < sc.count then getCellViscosity d i else sc.extra i }
  | _, _ => some sc

/-- `get_extra_viscosity` of a scalar equation, concept.py:632-643. -/
def getExtraViscosity (e : Option Extra) (x : ℝ) : Option ℝ :=
  match e with
  | some (.callable f) => some (f x)
  | some (.float c) => some c
  | some (.other true) => none
  | some (.other false) => some 0
  | none => some 0

open scoped Classical in
/-- `bool(_extra_viscosity)`, concept.py:657. -/
noncomputable def truthy (e : Option Extra) : Bool :=
  match e with
  | some (.callable _) => true
  | some (.float c) => decide (c ≠ 0)
  | some (.other t) => t
  | none => false

/-- `get_dg_flux` of a scalar equation with given value and gradient, concept.py:645-661. -/
noncomputable def flux (ph : Physics ℝ) (e : Option Extra) (x u du : ℝ) : Option ℝ :=
  if truthy e || !ph.inviscid then (getExtraViscosity e x).map fun nu => ph.convective u - ph.diffusive u du nu
  else some (ph.convective u)

/-! ## The time step -/

/-- `spatial_factor`, concept.py:762-777. -/
def spatialFactor (p : Nat) : Nat :=
  if p = 0 then 1 else if p = 1 then 4 else if p = 2 then 6 else if p = 3 then 12 else if p = 4 then 28
  else if p = 5 then 50 else if p = 6 then 90 else 3 * p ^ 2

/-- `_suggest_dt_by_blazek` of a scalar equation, concept.py:757-785 up to the first `return`, and `get_diffusive_radius`,
concept.py:406-408: `h` is the length, `radius` the convective radius of the average, `own` the coefficient of the equation
there, `extra` the extra viscosity at the center, `cfl` what `suggest_cfl(3)` gives. -/
noncomputable def blazek (p : Nat) (h radius own extra cfl : ℝ) : ℝ :=
  h / (max radius (1 / 10 ^ 16) + spatialFactor p * ((own + extra) / h)) * cfl

/-- `suggest_delta_t`, concept.py:1143-1147, over what the elements suggest. -/
noncomputable def suggestDeltaT (given : ℝ) (suggested : List ℝ) : ℝ := suggested.foldl min given

/-! ## Persson and Peraire -/

open scoped Classical in
/-- `Persson2006._get_constant_coeff` with a given sensor, viscosity.py:47-60.  `log10(0)` is minus infinity. -/
noncomputable def perssonNu (p : Nat) (kappa length sensor : ℝ) : ℝ :=
  if sensor = 0 then 0
  else
    let gap := Real.logb 10 sensor - -4 * Real.logb 10 p
    let nu := length / p
    if gap > kappa then nu
    else if gap > -kappa then nu * (1 / 2 * (1 + Real.sin (gap / kappa * Real.pi / 2)))
    else 0

/-- `Persson2006._get_constant_coeff`, viscosity.py:47-60.  The division by the degree zero raises, and so does the truth
value of an array (`m + 1` components) of more than one entry. -/
noncomputable def perssonCoeff {p m : Nat} (kappa : ℝ) (s : Setup p) (st : State p (PyDetector.Value m)) : Option ℝ :=
  (PyDetector.perssonSensor s st).bind fun sensor =>
    if p = 0 then none else if m = 0 then some (perssonNu p kappa s.coordinate.length (sensor 0)) else none

/-! ## The energy-based coefficient of a scalar equation -/

section Energy
variable {p n : Nat}

/-- `_jumps_to_energy` of a scalar equation, viscosity.py:80-98; no indices means all. -/
noncomputable def jumpsToEnergy (s : Setup p) (jumps : Fin (p + 1) → ℝ) (indices : List (Fin (p + 1))) : ℝ :=
  let indices := if indices.isEmpty then List.finRange (p + 1) else indices
  indices.foldl (fun energy k => energy + s.integrator.weights k * jumps k ^ 2 / 2) 0

/-- `range((1 + len(points)) // 2)`, viscosity.py:209. -/
def lowerHalf (p : Nat) : List (Fin (p + 1)) := (List.finRange (p + 1)).filter fun i => i.val < (1 + (p + 1)) / 2

/-- `range(len(points) // 2, len(points))`, viscosity.py:224. -/
def upperHalf (p : Nat) : List (Fin (p + 1)) := (List.finRange (p + 1)).filter fun i => (p + 1) / 2 ≤ i.val

/-- The jumps of viscosity.py:210-215 and 225-230: if the number of points is odd, `indices[-1]` of the lower half and
`indices[0]` of the upper half are the point in the middle, whose jump is divided by the square root of two. -/
noncomputable def halfJumps (points values : Fin (p + 1) → ℝ) (other : ℝ → ℝ) (i : Fin (p + 1)) : ℝ :=
  let jump := values i - other (points i)
  if (p + 1) % 2 = 1 ∧ i.val = p / 2 then jump / √2 else jump

/-- `expansion.Legendre(1, left.coordinate(), …)` and its `approximate`, viscosity.py:207-208 and 222-223. -/
noncomputable def low (roots : (m : Nat) → Rule m) (b : Neighbour p ℝ) : Option (ℝ → ℝ) :=
  (modal (.shifted b.setup.coordinate b.shift) (roots 1)).map fun s1 => s1.value (approximate s1 b.value)

/-- One half of `_get_lazy_half_energy`, viscosity.py:205-218 and 220-233. -/
noncomputable def halfEnergy (roots : (m : Nat) → Rule m) (s : Setup p) (values : Fin (p + 1) → ℝ)
    (indices : List (Fin (p + 1))) (b : Option (Neighbour p ℝ)) : Option ℝ :=
  match b with
  | none => some 0
  | some b => (low roots b).map fun low =>
    min (jumpsToEnergy s (halfJumps s.points values low) indices)
      (jumpsToEnergy s (halfJumps s.points values b.value) indices)

/-- `_get_oscillation_energy` and `_get_lazy_half_energy`, viscosity.py:298-314 and 194-233. -/
noncomputable def oscillationEnergy (roots : (m : Nat) → Rule m) (s : Setup p) (st : State p ℝ)
    (left right : Option (Neighbour p ℝ)) : Option ℝ :=
  let values := fun i => nodeDerivatives s st i 0
  (halfEnergy roots s values (lowerHalf p) left).bind fun l =>
    (halfEnergy roots s values (upperHalf p) right).map fun r => l + r

/-- `_get_max_nu`, viscosity.py:316-322, for a positive degree. -/
noncomputable def maxNu (radius : ℝ → ℝ) (s : Setup p) (st : State p ℝ) : ℝ :=
  s.coordinate.length / p * (List.finRange (p + 1)).foldl (fun a i => max a (radius (st.coeff i))) 0

/-- `_get_constant_coeff` of a scalar equation, viscosity.py:324-335.  The division by the degree zero raises. -/
noncomputable def constantCoeff (roots : (m : Nat) → Rule m) (tau : ℝ) (radius : ℝ → ℝ) (m : Matrices p) (s : Setup p)
    (st : State p ℝ) (left right : Option (Neighbour p ℝ)) : Option ℝ :=
  match s.kind with
  | .legendreRoots =>
    (rate m s st.coeff).bind fun dissipation =>
      (oscillationEnergy roots s st left right).bind fun energy =>
        if p = 0 then none else some (min (energy / (-dissipation * tau)) (maxNu radius s st))
  | _ => none

/-- `Grid.length()`, concept.py:1043-1049 and spatial.py. -/
noncomputable def gridLength (grid : Grid p n ℝ) : ℝ :=
  (grid.cells (Fin.last _)).setup.coordinate.xRight - (grid.cells 0).setup.coordinate.xLeft

/-- `_left_expansion` of an element, spatial.py:57-86: the wrapper of the last element is moved by minus the length of the
grid. -/
noncomputable def leftNeighbour (grid : Grid p n ℝ) (i : Fin (n + 2)) : Option (Neighbour p ℝ) :=
  (leftOf grid i).map fun j =>
    ⟨(grid.cells j).setup, (grid.cells j).state, if i = 0 then -gridLength grid else 0⟩

/-- `_right_expansion` of an element, spatial.py:57-86. -/
noncomputable def rightNeighbour (grid : Grid p n ℝ) (i : Fin (n + 2)) : Option (Neighbour p ℝ) :=
  (rightOf grid i).map fun j =>
    ⟨(grid.cells j).setup, (grid.cells j).state, if i = Fin.last _ then gridLength grid else 0⟩

/-- `_get_constant_coeff(grid, i_curr)`. -/
noncomputable def cellCoeff (roots : (m : Nat) → Rule m) (tau : ℝ) (radius : ℝ → ℝ) (g : Correction) (grid : Grid p n ℝ)
    (i : Fin (n + 2)) : Option ℝ :=
  constantCoeff roots tau radius (matricesOf g grid i) (grid.cells i).setup (grid.cells i).state
    (leftNeighbour grid i) (rightNeighbour grid i)

end Energy

/-! ## The profiles -/

/-- What the profiles ask an element for. -/
structure Site where
  xLeft : ℝ
  length : ℝ
  xCenter : ℝ
  hasLeft : Bool
  hasRight : Bool

/-- `_get_nu`, viscosity.py:337-346, with the `0.0` of an untroubled element as `none`. -/
def lookup {α : Type*} (nus : Dict α) (i : Int) (count : Nat) : Option (Option α) :=
  if -1 ≤ i ∧ i ≤ count then
    let i := if i < 0 then i + count else i
    let i := if i = count then 0 else i
    some (nus i.toNat)
  else none

/-- `_get_nu` of a scalar equation. -/
noncomputable def getNu (nus : Dict ℝ) (i : Int) (count : Nat) : Option ℝ := (lookup nus i count).map fun nu => nu.getD 0

namespace Quadratic

/-- `_build_a_on_interfaces`, viscosity.py:391-398. -/
noncomputable def onInterfaces (length : ℝ) : Matrix (Fin 3) (Fin 3) ℝ :=
  let h := length / 2
  !![1, 0, 0; 1, -h, h * h; 1, h, h * h]

/-- The dictionary `_index_to_a_inv`. -/
abbrev Cache := Dict (Matrix (Fin 3) (Fin 3) ℝ)

open scoped Classical in
/-- `_get_callable_scalar`, viscosity.py:437-453, and what it leaves in `_index_to_a_inv`.  A singular matrix raises. -/
noncomputable def callableScalar (cache : Cache) (b : Fin 3 → ℝ) (i : Nat) (c : Site) : Option ((ℝ → ℝ) × Cache) :=
  if b 0 ≠ max (max (b 0) (b 1)) (b 2) then
    some (fun x => b 1 + (b 2 - b 1) * (x - c.xLeft) / c.length, cache)
  else
    let found := match cache i with
      | some inv => some (inv, cache)
      | none =>
        let a := onInterfaces c.length
        if a.det = 0 then none else some (a⁻¹, Function.update cache i (some a⁻¹))
    found.map fun (inv, cache) =>
      let w := inv.mulVec b
      (fun x => max 0 (w 0 + w 1 * (x - c.xCenter) + w 2 * (x - c.xCenter) * (x - c.xCenter)), cache)

/-- `_common`, viscosity.py:468-471. -/
noncomputable def common (a b : ℝ) : ℝ := (a + b) / 2

/-- The array `b` of `_get_callable_coeff`, viscosity.py:478-483. -/
noncomputable def faces (nus : Dict ℝ) (count : Nat) (i : Nat) (c : Site) : Option (Fin 3 → ℝ) :=
  (nus i).bind fun nu =>
    let left := if c.hasLeft then (getNu nus (i - 1) count).map (common nu) else some nu
    let right := if c.hasRight then (getNu nus (i + 1) count).map (common nu) else some nu
    left.bind fun l => right.map fun r => ![nu, l, r]

/-- `_get_callable_coeff` of a scalar equation, viscosity.py:473-487; the assertion fails for an index without entry. -/
noncomputable def callableCoeff (cache : Cache) (nus : Dict ℝ) (count : Nat) (i : Nat) (c : Site) :
    Option ((ℝ → ℝ) × Cache) :=
  (faces nus count i c).bind fun b => callableScalar cache b i c

/-- The second loop of `generate`, viscosity.py:354-356. -/
noncomputable def profiles (nus : Dict ℝ) (count : Nat) (sites : Nat → Site) :
    List Nat → Cache → Dict (ℝ → ℝ) → Option (Dict (ℝ → ℝ) × Cache)
  | [], cache, d => some (d, cache)
  | i :: is, cache, d => (callableCoeff cache nus count i (sites i)).bind fun (f, cache) =>
      profiles nus count sites is cache (Function.update d i (some f))

/-- `generate`, viscosity.py:348-356: `nu` is `_get_constant_coeff(grid, ·)`; the cache survives. -/
noncomputable def generate (nu : Nat → Option ℝ) (count : Nat) (sites : Nat → Site) (indices : List Nat) (cache : Cache) :
    Option (Dict (ℝ → ℝ) × Cache) :=
  (fill nu indices fun _ => none).bind fun nus => profiles nus count sites indices cache fun _ => none

end Quadratic

namespace Linear

open scoped Classical in
/-- `_get_upwind_scalar`, viscosity.py:550-557. -/
noncomputable def upwind (speed left right : ℝ) : ℝ :=
  if speed > 0 then left else if speed < 0 then right else (left + right) / 2

/-- The face at the right of element `i - 1` and at the left of element `i`; in a periodic grid face 0 is the last one
(spatial.py:57-86). -/
def rightFace (periodic : Bool) (count i : Nat) : Nat := if periodic && i + 1 == count then 0 else i + 1

/-- `_get_callable_coeff` of a scalar equation, viscosity.py:580-606; `speeds` is `_face_to_eigvals`. -/
noncomputable def callableCoeff (speeds : Nat → ℝ) (periodic : Bool) (nus : Dict ℝ) (count : Nat) (i : Nat) (c : Site) :
    Option (ℝ → ℝ) :=
  (nus i).bind fun nu =>
    (getNu nus (i - 1) count).bind fun l => (getNu nus (i + 1) count).map fun r =>
      let l := if c.hasLeft then l else l * 0
      let l := upwind (speeds i) l nu
      let r := if c.hasRight then r else r * 0
      let r := upwind (speeds (rightFace periodic count i)) nu r
      fun x =>
        let ratio := (x - c.xLeft) / c.length
        l * (1 - ratio) + r * ratio

/-- `generate` of a scalar equation, viscosity.py:513-548 and 348-356. -/
noncomputable def generate (nu : Nat → Option ℝ) (speeds : Nat → ℝ) (periodic : Bool) (count : Nat) (sites : Nat → Site)
    (indices : List Nat) : Option (Dict (ℝ → ℝ)) :=
  (fill nu indices fun _ => none).bind fun nus =>
    fill (fun i => callableCoeff speeds periodic nus count i (sites i)) indices fun _ => none

/-- `_get_upwind_nu` of a system with more than one component, viscosity.py:559-568; `none` in the arguments is the float
`0.0`.  With a float at the left the truth value of the array `eigvals > 0` raises, with one at the right `right_nu[i]`. -/
noncomputable def upwindVector {m : Nat} (speeds : Fin m → ℝ) (left right : Option (Fin m → ℝ)) : Option (Fin m → ℝ) :=
  match left, right with
  | some l, some r => some fun k => upwind (speeds k) (l k) (r k)
  | _, _ => none

/-- `_span`, viscosity.py:570-578. -/
noncomputable def span {m : Nat} (diag : Fin m → ℝ) (left right : Matrix (Fin m) (Fin m) ℝ) : Matrix (Fin m) (Fin m) ℝ :=
  ∑ i, Matrix.of fun r c => right r i * (diag i * left i c)

/-- `_get_callable_coeff` of a system, viscosity.py:580-606; `eigen` is `_face_to_eigmats`. -/
noncomputable def callableVector {m : Nat} (speeds : Nat → Fin m → ℝ)
    (eigen : Nat → Matrix (Fin m) (Fin m) ℝ × Matrix (Fin m) (Fin m) ℝ) (periodic : Bool) (nus : Dict (Fin m → ℝ))
    (count : Nat) (i : Nat) (c : Site) : Option (ℝ → Matrix (Fin m) (Fin m) ℝ) :=
  (nus i).bind fun nu =>
    (lookup nus (i - 1) count).bind fun l => (lookup nus (i + 1) count).bind fun r =>
      let l := if c.hasLeft then l else l.map fun l => (0 : ℝ) • l
      let r := if c.hasRight then r else r.map fun r => (0 : ℝ) • r
      let right := rightFace periodic count i
      (upwindVector (speeds i) l (some nu)).bind fun l => (upwindVector (speeds right) (some nu) r).map fun r =>
        let l := span l (eigen i).1 (eigen i).2
        let r := span r (eigen right).1 (eigen right).2
        fun x =>
          let ratio := (x - c.xLeft) / c.length
          (1 - ratio) • l + ratio • r

/-- The second loop of `generate` for a system, viscosity.py:354-356. -/
noncomputable def generateVector {m : Nat} (nu : Nat → Option (Fin m → ℝ)) (speeds : Nat → Fin m → ℝ)
    (eigen : Nat → Matrix (Fin m) (Fin m) ℝ × Matrix (Fin m) (Fin m) ℝ) (periodic : Bool) (count : Nat)
    (sites : Nat → Site) (indices : List Nat) : Option (Dict (ℝ → Matrix (Fin m) (Fin m) ℝ)) :=
  (fill nu indices fun _ => none).bind fun nus =>
    fill (fun i => callableVector speeds eigen periodic nus count i (sites i)) indices fun _ => none

end Linear

end MiniCFD.PyViscosity
