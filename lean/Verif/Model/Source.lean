import Verif.Model.Intersect
import Verif.Model.Rotor
import Verif.Model.Gauss
import Verif.Model.Residual

/-!
# Model of the source term of a rotorcraft

Covers `include/mini/aircraft/source.hpp` (`Rotorcraft`) and `WithLimiterAndSource` of
`include/mini/spatial/dg/general.hpp` (without the limiter, see `Verif.Model.Reconstruct`).  Scalars are real.
Undefined behaviour, exceptions and quotients by zero are `none`.
-/

namespace MiniCFD.Source

open MiniCFD.Frame MiniCFD.Rotor MiniCFD.Residual MiniCFD.Column MiniCFD.Projection

/-! ### The part of a blade in a cell -/

/-- The first three nodes of a face, as read at source.hpp:62-64.  Faces with other numbers of corners fail the
assertion before and are not modelled. -/
structure Triangle where
  a : Vec
  b : Vec
  c : Vec

/-- `Valid`, source.hpp:43-45. -/
def Valid (ratio : ℝ) : Prop := 0 ≤ ratio ∧ ratio ≤ 1

noncomputable instance (ratio : ℝ) : Decidable (Valid ratio) := inferInstanceAs (Decidable (_ ∧ _))

/-- One round of the loop over `adj_faces_`, source.hpp:54-79: `rs` holds `r_ratio` and `s_ratio`.  Leaving the loop
is the same as doing nothing in the remaining rounds; the assertion at line 76 cannot be reached. -/
noncomputable def step (solve : Intersect.Columns ℝ → Vec → Vec) (p pq : Vec) (rs : ℝ × ℝ) (f : Triangle) : ℝ × ℝ :=
  if Valid rs.1 ∧ Valid rs.2 then rs
  else
    let ratio := Intersect.intersect solve (f.a - p) (f.b - p) (f.c - p) pq (-1)
    if Valid ratio then (if ¬ Valid rs.1 then (ratio, rs.2) else (rs.1, ratio)) else rs

/-- After the loop, source.hpp:80-90. -/
noncomputable def finish (rs : ℝ × ℝ) : ℝ × ℝ :=
  let s := if Valid rs.1 ∧ ¬ Valid rs.2 then (if rs.1 < 1 / 2 then 0 else 1) else rs.2
  if (Valid rs.1 ∧ Valid s) ∧ s < rs.1 then (s, rs.1) else (rs.1, s)

/-- `Intersect`, source.hpp:47-92. -/
noncomputable def segment (solve : Intersect.Columns ℝ → Vec → Vec) (faces : List Triangle) (p pq : Vec) : ℝ × ℝ :=
  finish (faces.foldl (step solve p pq) (-1, -1))

/-! ### Forces -/

/-- An airfoil: `Lift` and `Drag`. -/
structure Foil where
  lift : ℝ → ℝ
  drag : ℝ → ℝ

/-- `Section::Lift` and `Section::Drag`, section.hpp:76-83. -/
noncomputable def lift (s : Section Foil) (deg : ℝ) : ℝ := s.a0.lift deg * s.w0 + s.a1.lift deg * s.w1
noncomputable def drag (s : Section Foil) (deg : ℝ) : ℝ := s.a0.drag deg * s.w0 + s.a1.drag deg * s.w1

/-- `cv.momentum() / cv.mass()`. -/
noncomputable def velocity (u : Value 5) : Vec := fun k => u k.castSucc.succ / u 0

open scoped Classical in
/-- `GetSourceValue`, source.hpp:94-102, for the section of blade `b` at `ratio`, of a rotor turning at `omega`. -/
noncomputable def sourceValue (omega : ℝ) (b : Blade Foil) (ratio : ℝ) (s : Section Foil) (u : Value 5) :
    Option (Vec × ℝ) :=
  if u 0 = 0 then none
  else
    (sectionForce omega b.frame s.chord s.twist (lift s) (drag s) (sectionVelocity omega b ratio) (u 0)
      (velocity u)).map fun force => (force, force ⬝ᵥ velocity u)

/-- The points and weights of `gauss::Line<Scalar, 1, 4>(r, s)`, line.hpp:53-77. -/
noncomputable def line (r s : ℝ) : List (ℝ × ℝ) :=
  (Gauss.legendre4.points.zip Gauss.legendre4.weights).map fun xw =>
    (r * (1 / 2 - xw.1 * (1 / 2)) + s * (1 / 2 + xw.1 * (1 / 2)), xw.2 * (|r - s| * (1 / 2)))

/-- What is computed at a point of a blade. -/
structure Load where
  point : Vec
  force : Vec
  power : ℝ
  weight : ℝ

variable {n : Nat}

/-- The section at a point of the line, its origin, its force and power, source.hpp:112-115 and 157-160; `ro` is the
origin of the rotor. -/
noncomputable def load (omega : ℝ) (ro : Vec) (b : Blade Foil) (c : Cell Vec 5 n) (xw : ℝ × ℝ) : Option Load := do
  let s ← b.getSection xw.1
  let point ← b.getPoint ro xw.1
  let fp ← sourceValue omega b xw.1 s (c.value point)
  some ⟨point, fp.1, fp.2, xw.2⟩

/-- The four rows of `product`, source.hpp:118-123. -/
noncomputable def product (c : Cell Vec 5 n) (l : Load) : Fin 4 → Fin (n + 1) → ℝ := fun k i =>
  ![l.force 0, l.force 1, l.force 2, l.power] k * c.basis l.point i

/-- `UpdateCoeff` for one blade, source.hpp:104-134: what is added to the coefficients of cell `at'`.  Row 0 is not
touched by the code, which is the same as adding zero. -/
noncomputable def updateBlade (solve : Intersect.Columns ℝ → Vec → Vec) (faces : List Triangle) (c : Cell Vec 5 n)
    (at' : Nat) (r : Rotor Foil) (b : Blade Foil) : Option (List (Contribution ℝ)) :=
  let rs := segment solve faces b.p b.pq
  if rs.1 < rs.2 then do
    let loads ← (line rs.1 rs.2).mapM (load r.omega r.origin b c)
    let integral : Fin 4 → Fin (n + 1) → ℝ := fun k i => (loads.map fun l => product c l k i * l.weight).sum * b.span
    some [addCoeff at' fun row i => (Fin.cons 0 (fun k => integral k i) : Fin 5 → ℝ) row]
  else some []

/-- `UpdateCoeff`, source.hpp:137-144: the rotors afterwards and what is added. -/
noncomputable def updateCoeff (solve : Intersect.Columns ℝ → Vec → Vec) (rotors : List (Rotor Foil)) (t : ℝ)
    (faces : List Triangle) (c : Cell Vec 5 n) (at' : Nat) : Option (List (Rotor Foil) × List (Contribution ℝ)) :=
  match rotors with
  | [] => some ([], [])
  | r :: rest => do
    let r := Rotor.apply r (.update t)
    let cs ← collect (updateBlade solve faces c at' r) r.blades
    let (rest, cs') ← updateCoeff solve rest t faces c at'
    some (r :: rest, cs ++ cs')

/-- An entry of the vectors which `GetForces` fills: force, point and weight. -/
abbrev Reported := Vec × Vec × ℝ

/-- `GetForces` for one blade, source.hpp:150-167. -/
noncomputable def getForcesBlade (solve : Intersect.Columns ℝ → Vec → Vec) (faces : List Triangle) (c : Cell Vec 5 n)
    (r : Rotor Foil) (b : Blade Foil) : Option (List Reported) :=
  let rs := segment solve faces b.p b.pq
  if rs.2 ≤ rs.1 then some []
  else do
    let loads ← (line rs.1 rs.2).mapM (load r.omega r.origin b c)
    some (loads.map fun l => (l.force, l.point, l.weight * b.span))

/-- `GetForces`, source.hpp:146-169. -/
noncomputable def getForces (solve : Intersect.Columns ℝ → Vec → Vec) (rotors : List (Rotor Foil)) (t : ℝ)
    (faces : List Triangle) (c : Cell Vec 5 n) : Option (List (Rotor Foil) × List Reported) :=
  match rotors with
  | [] => some ([], [])
  | r :: rest => do
    let r := Rotor.apply r (.update t)
    let fs ← collect (getForcesBlade solve faces c r) r.blades
    let (rest, fs') ← getForces solve rest t faces c
    some (r :: rest, fs ++ fs')

/-! ### The spatial scheme with a source -/

/-- The loop of `AddSourceIntegral`, dg/general.hpp:261-269, over the cells at the given positions; `faces` are those
of `adj_faces_`. -/
noncomputable def sourceLoop (solve : Intersect.Columns ℝ → Vec → Vec) (P : Part Vec 5 n)
    (faces : Fin P.count → List Triangle) (t : ℝ) :
    List (Fin P.count) → List (Rotor Foil) → Option (List (Rotor Foil) × List (Contribution ℝ))
  | [], rotors => some (rotors, [])
  | p :: ps, rotors => do
    let (rotors, cs) ← updateCoeff solve rotors t (faces p) (P.cells p) p
    let (rotors, cs') ← sourceLoop solve P faces t ps rotors
    some (rotors, cs ++ cs')

/-- `WithLimiterAndSource::GetResidualColumn`, dg/general.hpp:253-271, with a `Rotorcraft` (`some`) or with
`DummySource` (`none`): the rotors afterwards and the column. -/
noncomputable def withSource (solve : Intersect.Columns ℝ → Vec → Vec) (rotors : Option (List (Rotor Foil)))
    (P : Part Vec 5 n) (faces : Fin P.count → List Triangle) (c : Conditions Vec 5) (t : ℝ) :
    Option (Option (List (Rotor Foil)) × Numbering × List ℝ) := do
  let (num, col) ← generalResidual P c t
  match rotors with
  | none => some (none, num, col)
  | some rotors =>
    let (rotors, cs) ← sourceLoop solve P faces t (List.finRange P.count) rotors
    let col ← accumulate num cs col
    some (some rotors, num, col)

end MiniCFD.Source
