import Verif.Model.Sections

/-
Model of the boundary conditions of a zone: `BC` and `ZoneBC` (/repo/include/mini/mesh/cgns.hpp:482-563), the
look-up of sections by name, `Zone::GetSection` (cgns.hpp:784-796), and the look-up of solutions and fields by name,
`Part::SolnNameToId` and `FieldNameToId` (/repo/include/mini/mesh/part.hpp:512-552).

Names are lists of character codes, as in `Model/Sections.lean`.
-/
namespace MiniCFD.Boundary
open MiniCFD.Sections

/-- Where the comparison starts (cgns.hpp:787-790). -/
def startOf (sect name : List Nat) : Nat :=
  if name.length < sect.length then sect.length - name.length else 0

/-- `sect->name().substr(pos) == name` (cgns.hpp:791). -/
def matchesName (sect name : List Nat) : Bool := decide (sect.drop (startOf sect name) = name)

/-- `Zone::GetSection(name)` (cgns.hpp:784-796); `none` when it throws. -/
def getSection (name : List Nat) : List Sect → Option Sect
  | [] => none
  | s :: ss => if matchesName s.name name then some s else getSection name ss

/-- `BC` (cgns.hpp:482-492): the name and `ptset`. Simplified: the other members are only copied; `name` is a
`char[32]`, which CGNS names of 32 characters overrun. -/
structure BC where
  name : List Nat
  lo : Nat
  hi : Nat
deriving DecidableEq

/-- `ZoneBC::UpdateRanges` (cgns.hpp:532-540): the conditions afterwards, and whether the loop came to its end (it
does not when `GetSection` throws; the remaining conditions are then as before). -/
def updateRanges (secs : List Sect) : List BC → List BC × Bool
  | [] => ([], true)
  | b :: bs =>
    match getSection b.name secs with
    | none => (b :: bs, false)
    | some s =>
      let r := updateRanges secs bs
      ({ b with lo := s.first, hi := s.last } :: r.1, r.2)

/-- The loop of `SolnNameToId` and `FieldNameToId` (part.hpp:518-528, 538-549): `i` is the loop variable, the list
holds the names from `i` on. -/
def nameLoop (name : List Nat) : Nat → List (List Nat) → Nat
  | i, [] => i
  | i, n :: ns => if n = name then i else nameLoop name (i + 1) ns

/-- `SolnNameToId` and `FieldNameToId` when assertions are compiled out (part.hpp:512-552). -/
def nameToId (names : List (List Nat)) (name : List Nat) : Nat := nameLoop name 1 names

/-- The same with the assertions (part.hpp:529, 550): `none` when one fails. -/
def nameToIdChecked (names : List (List Nat)) (name : List Nat) : Option Nat :=
  if nameToId names name ≤ names.length then some (nameToId names name) else none

end MiniCFD.Boundary
