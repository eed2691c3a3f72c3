import Verif.Model.Frame
import Mathlib.Analysis.SpecialFunctions.Trigonometric.Arctan
import Mathlib.Algebra.Order.Floor.Ring
import Mathlib.Data.Real.Archimedean
import Mathlib.LinearAlgebra.Matrix.DotProduct

/-!
# Model of the rotor, blade, section and airfoil classes

Covers `include/mini/aircraft/{rotor,blade,section,airfoil}.hpp`.
Scalars are real numbers; rounding is not modelled.  `std::numeric_limits`-style garbage in members
that the constructors leave uninitialised is modelled by letting the initial state be arbitrary.
Throwing, failed assertions and undefined behaviour are `none`.
-/

namespace MiniCFD.Rotor
open MiniCFD.Frame

/-- One station of a blade.  The code keeps four parallel vectors (blade.hpp:31-33) which
`InstallSection` always extends together; the model keeps one list of quadruples.
`A` is the type of `const Airfoil *`. -/
structure Station (A : Type*) where
  y : ℝ
  chord : ℝ
  twist : ℝ
  airfoil : A

/-- The members of `Blade` (blade.hpp:31-37) except `rotor_`: `Model/RotorHeap.lean` shows that
`rotor_` always points to the rotor that owns the blade, so here that rotor's frame and origin are
passed where the code follows the pointer. -/
structure Blade (A : Type*) where
  stations : List (Station A)
  p : Vec
  q : Vec
  pq : Vec
  frame : Axes
  root : ℝ
  azimuth : ℝ

/-- The members of `Rotor` (rotor.hpp:25-30). -/
structure Rotor (A : Type*) where
  blades : List (Blade A)
  frame : Axes
  origin : Vec
  initial : ℝ
  azimuth : ℝ
  omega : ℝ
  time : ℝ

variable {A : Type*}

/-- `Blade::GetSpan`, blade.hpp:74-76. -/
def Blade.span (b : Blade A) : ℝ :=
  match b.stations.getLast? with
  | none => 0
  | some s => s.y

/-- `Blade::GetOrigin`, blade.hpp:95-99; `ro` is the rotor's origin. -/
noncomputable def Blade.origin (ro : Vec) (b : Blade A) : Vec := b.root • b.frame.y + ro

/-- `Blade::GetPoint`, blade.hpp:113-121. -/
noncomputable def Blade.getPoint (ro : Vec) (b : Blade A) (ratio : ℝ) : Option Vec :=
  if ratio < 0 ∨ 1 < ratio then none
  else some ((ratio * b.span) • b.frame.y + b.origin ro)

/-- `Blade::SetAzimuth`, blade.hpp:47-55. The two calls of `GetPoint` cannot throw; `getD` only
discards the impossible branch (see `getPoint_zero`, `getPoint_one`). -/
noncomputable def Blade.setAzimuth (rf : Axes) (ro : Vec) (deg : ℝ) (b : Blade A) : Blade A :=
  let b := { b with azimuth := deg }
  let b := { b with frame := rf.rotateZ deg }
  let p := (b.getPoint ro 0).getD 0
  let q := (b.getPoint ro 1).getD 0
  { b with p := p, q := q, pq := q - p }

/-- `Blade::InstallSection`, blade.hpp:56-69. -/
noncomputable def Blade.installSection (s : Station A) (b : Blade A) : Option (Blade A) :=
  match b.stations.getLast? with
  | none => if s.y = 0 then some { b with stations := [s] } else none
  | some l => if s.y ≤ l.y then none else some { b with stations := b.stations ++ [s] }

/-- The part of a `Section` computed by `GetSection`: chord, twist and the two weighted airfoils. -/
structure Section (A : Type*) where
  chord : ℝ
  twist : ℝ
  a0 : A
  w0 : ℝ
  a1 : A
  w1 : ℝ

/-- The interpolation of `Blade::GetSection`, blade.hpp:132-156, for the neighbouring stations:
`prev` is the station before the one found by `std::lower_bound` (absent when that is the first),
`s` the one found. -/
noncomputable def between (y : ℝ) (prev : Option (Station A)) (s : Station A) :
    Option (Section A) :=
  if s.y = y then some ⟨s.chord, s.twist, s.airfoil, 0, s.airfoil, 1⟩
  else match prev with
    | none => none
    | some r =>
      let l1 := (s.y - y) / (s.y - r.y)
      let l0 := 1 - l1
      some ⟨s.chord * l1 + r.chord * l0, s.twist * l1 + r.twist * l0, r.airfoil, l0, s.airfoil, l1⟩

/-- `std::lower_bound` on the (sorted) positions followed by the interpolation: the first station
not before `y`.  The binary search is simplified to a linear one, which finds the same station in a
sorted list; running off the end is the failed assertion of blade.hpp:136. -/
noncomputable def search (y : ℝ) : Option (Station A) → List (Station A) → Option (Section A)
  | _, [] => none
  | prev, s :: rest => if s.y < y then search y (some s) rest else between y prev s

/-- `Blade::GetSection`, blade.hpp:132-156. -/
noncomputable def Blade.getSection (b : Blade A) (ratio : ℝ) : Option (Section A) :=
  if 0 ≤ ratio ∧ ratio ≤ 1 then search (ratio * b.span) none b.stations else none

/-- The loop of `Rotor::SetAzimuth`, rotor.hpp:97-100. -/
noncomputable def setBlades (rf : Axes) (ro : Vec) (psi : ℝ) : ℝ → List (Blade A) → List (Blade A)
  | _, [] => []
  | deg, b :: bs => b.setAzimuth rf ro deg :: setBlades rf ro psi (deg + psi) bs

/-- `Rotor::SetAzimuth`, rotor.hpp:94-102. Without blades the quotient is not used. -/
noncomputable def Rotor.setAzimuth (deg : ℝ) (r : Rotor A) : Rotor A :=
  let r := { r with azimuth := deg }
  let psi := 360 / (r.blades.length : ℝ)
  { r with blades := setBlades r.frame r.origin psi deg r.blades }

/-- The mutators of `Rotor`, rotor.hpp:79-122. -/
inductive Op (A : Type*)
  | rps (rps : ℝ)
  | origin (o : Vec)
  | frame (f : Axes)
  | azimuth (deg : ℝ)
  | initial (deg : ℝ)
  | update (time : ℝ)
  | install (root : ℝ) (b : Blade A)

open scoped Classical in
/-- The effect of one mutator: `SetRevolutionsPerSecond` L79-82, `SetOrigin` L84-87, `SetFrame`
L89-92, `SetAzimuth` L94-102, `SetInitialAzimuth` L103-107, `UpdateAzimuth` L108-116, `InstallBlade`
L118-122. -/
noncomputable def apply (r : Rotor A) : Op A → Rotor A
  | .rps v => { r with omega := v * 360 }
  | .origin o => { r with origin := o }
  | .frame f => { r with frame := f }
  | .azimuth d => r.setAzimuth d
  | .initial d => { r with initial := d }.setAzimuth d
  | .update t =>
    if r.time ≠ t then
      let r := { r with time := t }
      r.setAzimuth (r.initial + t * r.omega)
    else r
  | .install root b => { r with blades := r.blades ++ [{ b with root := root }] }

/-- A history of calls. -/
noncomputable def run (r : Rotor A) (ops : List (Op A)) : Rotor A := ops.foldl apply r

/-! ### Sections -/

/-- `Section::GetAngleOfAttack`, section.hpp:36-53. `atan (w / u)` at `u = 0` is the floating point
limit ±90 and not a number at `u = w = 0` (modelled as `none`). -/
noncomputable def angleOfAttack (twist u w : ℝ) : Option ℝ :=
  let inflow : Option ℝ :=
    if u = 0 then
      if w = 0 then none else some (if 0 < w then 90 else -90)
    else some (rad2deg (Real.arctan (w / u)))
  inflow.map fun deg =>
    let deg := if u < 0 then (if 0 < w then deg + 180 else deg - 180) else deg
    let deg := deg + twist
    if deg < -180 ∨ 180 < deg then deg + (if deg < 0 then 360 else -360) else deg

/-- The index expression of `SC1095::Lift` and `SC1095::Drag`, airfoil.hpp:121-126: the double
`(deg + 180) / 2` converted to `std::size_t`. The conversion of a negative value (≤ -1) and reading
past the 181 entries are undefined behaviour. -/
noncomputable def tableLookup (table : List ℝ) (deg : ℝ) : Option ℝ :=
  let x := (deg + 180) / 2
  if x ≤ -1 then none else table[⌊x⌋.toNat]?

/-- `Linear::Lift` and `Linear::Drag`, airfoil.hpp:31-36. -/
def linearLift (c deg : ℝ) : ℝ := c * deg
def linearDrag (c deg : ℝ) : ℝ := c * |deg|

/-- `Section::GetVelocity`, section.hpp:90-95, for a blade of a rotor turning at `omega` degrees
per second. -/
noncomputable def sectionVelocity (omega : ℝ) (b : Blade A) (ratio : ℝ) : Vec :=
  (deg2rad omega * (b.root + b.span * ratio)) • (-b.frame.x)

/-- `Section::GetForce`, section.hpp:103-121. `lift` and `drag` are the airfoil functions of the
section, `own` is its velocity. -/
noncomputable def sectionForce (omega : ℝ) (f : Axes) (chord twist : ℝ) (lift drag : ℝ → ℝ)
    (own : Vec) (rho : ℝ) (velocity : Vec) : Option Vec :=
  let v := velocity - own
  let ux := if omega < 0 then -f.x else f.x
  let u := v ⬝ᵥ ux
  let w := v ⬝ᵥ f.z
  (angleOfAttack twist u w).map fun deg =>
    let cl := lift deg
    let cd := drag deg
    let (cos, sin) := cosSin (deg - twist)
    let cz := cl * cos + cd * sin
    let cx := cd * cos - cl * sin
    (-(1 / 2) * rho * (u * u + w * w) * chord) • (cz • f.z + cx • ux)

end MiniCFD.Rotor
