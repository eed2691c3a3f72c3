import Mathlib.Data.Nat.Basic

/-!
# What users expect of meshes: values

A mesh is two lists and a number.  Meshes do not know of each other: writing to one changes that one, moving
one hands its value over and leaves nothing that may be read.
-/

namespace MiniCFD.Spec.MetisMesh

/-- The value of a mesh. -/
structure Value where
  range : List Int
  nodes : List Int
  count : Int

/-- The vectors of the program and the meshes; `some none` is a live mesh without a value. -/
structure World where
  vectors : Nat → Option (List Int)
  meshes : Nat → Option (Option Value)

/-- The operations, without any addresses of arrays inside of meshes. -/
inductive Act
  | vector (b : Nat) (xs : List Int)
  | write (b i : Nat) (x : Int)
  | free (b : Nat)
  | default (a : Nat)
  | adopt (a r x : Nat) (n : Int)
  | resize (a cells : Nat) (nodes : Int) (locals : Nat)
  | moveConstruct (d s : Nat)
  | moveAssign (d s : Nat)
  | destroy (a : Nat)
  | setRange (a i : Nat) (v : Int)
  | setNodes (a i : Nat) (v : Int)

def set {α : Type} (f : Nat → Option α) (a : Nat) (o : Option α) : Nat → Option α := fun b => if b = a then o else f b

/-- A list with `n` items: the first ones of `xs`, then zeros. -/
def fit (xs : List Int) (n : Nat) : List Int := (List.range n).map fun i => (xs[i]?).getD 0

/-- The value of a mesh that has one. -/
def World.value (w : World) (a : Nat) : Option Value := (w.meshes a).join

/-- One operation on values; `none` is misuse. -/
def act (w : World) : Act → Option World
  | .vector b xs => if w.vectors b = none then some { w with vectors := set w.vectors b (some xs) } else none
  | .write b i x => (w.vectors b).bind fun xs =>
      if i < xs.length then some { w with vectors := set w.vectors b (some (xs.set i x)) } else none
  | .free b => (w.vectors b).map fun _ => { w with vectors := set w.vectors b none }
  | .default a => match w.meshes a with
    | none => some { w with meshes := set w.meshes a (some none) }
    | some _ => none
  | .adopt a r x n => match w.meshes a, w.vectors r, w.vectors x with
    | none, some rs, some xs =>
      if r ≠ x ∧ rs ≠ [] ∧ rs.getLast? = some (xs.length : Int) then
        some ⟨set (set w.vectors r none) x none, set w.meshes a (some (some ⟨rs, xs, n⟩))⟩
      else none
    | _, _, _ => none
  | .resize a cells nodes locals =>
    if 0 < cells ∧ 0 < nodes ∧ 0 < locals then
      match w.meshes a with
      | none => none
      | some none => some { w with meshes := set w.meshes a (some (some ⟨fit [] (cells + 1), fit [] locals, nodes⟩)) }
      | some (some v) =>
        some { w with meshes := set w.meshes a (some (some ⟨fit v.range (cells + 1), fit v.nodes locals, nodes⟩)) }
    else none
  | .moveConstruct d s => match w.meshes d, w.meshes s with
    | none, some v => some { w with meshes := set (set w.meshes s (some none)) d (some v) }
    | _, _ => none
  | .moveAssign d s => match w.meshes d, w.meshes s with
    | some _, some v => if d = s then none else some { w with meshes := set (set w.meshes s (some none)) d (some v) }
    | _, _ => none
  | .destroy a => (w.meshes a).map fun _ => { w with meshes := set w.meshes a none }
  | .setRange a i x => (w.value a).bind fun v =>
      if i < v.range.length then some { w with meshes := set w.meshes a (some (some { v with range := v.range.set i x })) } else none
  | .setNodes a i x => (w.value a).bind fun v =>
      if i < v.nodes.length then some { w with meshes := set w.meshes a (some (some { v with nodes := v.nodes.set i x })) } else none

/-- A whole program. -/
def acts (w : World) : List Act → Option World
  | [] => some w
  | o :: os => (act w o).bind fun w => acts w os

/-- The two arrays of a list of rows: where each row begins, and the rows one after another. -/
def starts : Int → List (List Int) → List Int
  | n, [] => [n]
  | n, row :: rows => n :: starts (n + row.length) rows

end MiniCFD.Spec.MetisMesh
