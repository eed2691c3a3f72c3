import Mathlib.Data.Nat.Basic

/-
Model of `Zone::AddSolution`, `Solution::AddField` and `Field::at`
(/repo/include/mini/mesh/cgns.hpp:566-700, 912-923).

The objects live behind `std::unique_ptr`s that are never erased or replaced, so a reference
handed out by an `Add…` call is modelled as the position of the object in its vector.
Names are any type with decidable equality; `Loc` is `GridLocation`.
-/
namespace MiniCFD.Fields

/-- `GridLocation` (cgns.hpp:36): the two supported values and all the others. -/
inductive Loc
  | vertex
  | cellCenter
  | other (k : Nat)
  deriving DecidableEq

/-- `Field` (cgns.hpp:566-610). -/
structure Field (N V : Type) where
  id : Nat
  name : N
  data : List V

/-- `Solution` (cgns.hpp:613-700). -/
structure Soln (N V : Type) where
  id : Nat
  name : N
  loc : Loc
  fields : List (Field N V)

/-- The part of `Zone` in play: counts and solutions. -/
structure Zone (N V : Type) where
  nNodes : Nat
  nCells : Nat
  solns : List (Soln N V)

variable {N V : Type} [DecidableEq N]

/-- The search loop of AddSolution (cgns.hpp:914-918), from position `i` on. -/
def findSoln (name : N) (loc : Loc) : List (Soln N V) → Nat → Option Nat
  | [], _ => none
  | s :: ss, i => if s.name = name ∧ s.loc = loc then some i else findSoln name loc ss (i + 1)

/-- `AddSolution` (cgns.hpp:912-923). -/
def addSoln (z : Zone N V) (name : N) (loc : Loc) : Zone N V × Nat :=
  match findSoln name loc z.solns 0 with
  | some i => (z, i)
  | none =>
    ({ z with solns := z.solns ++ [⟨z.solns.length + 1, name, loc, []⟩] }, z.solns.length)

/-- The search loop of AddField (cgns.hpp:682-686). -/
def findField (name : N) : List (Field N V) → Nat → Option Nat
  | [], _ => none
  | f :: fs, i => if f.name = name then some i else findField name fs (i + 1)

/-- `AddField` on one solution (cgns.hpp:679-692). `zero` is the initial value of `data_(size)`.
The assertion on the location is a failure. -/
def addFieldTo (zero : V) (nNodes nCells : Nat) (s : Soln N V) (name : N) :
    Option (Soln N V × Nat) :=
  if s.loc = .vertex ∨ s.loc = .cellCenter then
    match findField name s.fields 0 with
    | some i => some (s, i)
    | none =>
      let size := if s.loc = .cellCenter then nCells else nNodes
      some ({ s with fields :=
        s.fields ++ [⟨s.fields.length + 1, name, List.replicate size zero⟩] }, s.fields.length)
  else none

/-- `AddField` through the reference `h` of a solution. -/
def addField (zero : V) (z : Zone N V) (h : Nat) (name : N) : Option (Zone N V × Nat) := do
  let s ← z.solns[h]?
  let (s', i) ← addFieldTo zero z.nNodes z.nCells s name
  return ({ z with solns := z.solns.set h s' }, i)

/-- `field.at(i) = v` (cgns.hpp:598-600) through the references `h` and `k`; outside of the data
it is undefined. -/
def write (z : Zone N V) (h k i : Nat) (v : V) : Option (Zone N V) := do
  let s ← z.solns[h]?
  let f ← s.fields[k]?
  if 1 ≤ i ∧ i ≤ f.data.length then
    let f' := { f with data := f.data.set (i - 1) v }
    some { z with solns := z.solns.set h { s with fields := s.fields.set k f' } }
  else none

/-- One call by the user. -/
inductive Op (N V : Type)
  | addSoln (name : N) (loc : Loc)
  | addField (h : Nat) (name : N)
  | write (h k i : Nat) (v : V)

/-- The state after a call. -/
def step (zero : V) (z : Zone N V) : Op N V → Option (Zone N V)
  | .addSoln name loc => some (addSoln z name loc).1
  | .addField h name => (addField zero z h name).map Prod.fst
  | .write h k i v => write z h k i v

/-- The state after a history of calls. -/
def run (zero : V) : Zone N V → List (Op N V) → Option (Zone N V)
  | z, [] => some z
  | z, op :: ops => do
    let z' ← step zero z op
    run zero z' ops

end MiniCFD.Fields
