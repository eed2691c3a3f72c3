import Mathlib.Data.Nat.Basic
import Mathlib.Tactic.Common

/-!
# Model of the back pointer from blades to their rotor

Covers the copy control of `include/mini/aircraft/rotor.hpp` (lines 33-70), `InstallBlade`
(lines 118-122) and `Blade::SetRotor` (blade.hpp:39-42).  Only the pointers are modelled: a rotor
object is the list of the `rotor_` members of its blades.
-/

namespace MiniCFD.RotorHeap

/-- The live `Rotor` objects by address; each is the list of its blades' `rotor_` pointers. -/
abbrev Heap := Nat → Option (List Nat)

/-- Replace the object at one address. -/
def Heap.set (h : Heap) (a : Nat) (o : Option (List Nat)) : Heap :=
  fun b => if b = a then o else h b

/-- What a program can do to rotors. Growing a `std::vector<Rotor>` (source.hpp `InstallRotor`) is a
sequence of `moveConstruct` and `destroy`. -/
inductive Op
  | construct (a : Nat)
  | destroy (a : Nat)
  | copyAssign (dst src : Nat)
  | copyConstruct (dst src : Nat)
  | moveAssign (dst src : Nat)
  | moveConstruct (dst src : Nat)
  /-- `InstallBlade` at rotor `a` of a blade whose own pointer is `p`, possibly indeterminate. -/
  | install (a p : Nat)

/-- `for (auto &blade : blades_) blade.SetRotor(*this);` rotor.hpp:44-46 and 62-64. -/
def rebind (a : Nat) (blades : List Nat) : List Nat := blades.map fun _ => a

/-- The assignment operators: copy rotor.hpp:35-49 and move rotor.hpp:53-67. `move` tells
whether the source's vector is emptied. -/
def assign (move : Bool) (h : Heap) (dst src : Nat) : Option Heap :=
  if dst = src then some h
  else match h dst, h src with
    | some _, some bs =>
      let h := h.set dst (some (rebind dst bs))
      some (if move then h.set src (some []) else h)
    | _, _ => none

/-- One operation; `none` is undefined behaviour (use of a dead object, construction over a live
one). The copying and moving constructors (rotor.hpp:50-52, 68-70) default-initialise and assign. -/
def apply (h : Heap) : Op → Option Heap
  | .construct a => if h a = none then some (h.set a (some [])) else none
  | .destroy a => if h a = none then none else some (h.set a none)
  | .copyAssign d s => assign false h d s
  | .copyConstruct d s => if h d = none then assign false (h.set d (some [])) d s else none
  | .moveAssign d s => assign true h d s
  | .moveConstruct d s => if h d = none then assign true (h.set d (some [])) d s else none
  | .install a p => match h a with
    | none => none
    | some bs =>
      let bs := bs ++ [p]
      some (h.set a (some (bs.dropLast ++ [a])))

/-- A whole program. -/
def run (h : Heap) : List Op → Option Heap
  | [] => some h
  | o :: os => (apply h o).bind fun h => run h os

end MiniCFD.RotorHeap
