import Verif.Model.PyGrid

/-! What the grids of the Python code should look like, apart from how they are built. -/

namespace MiniCFD.Spec.PyGrid

open MiniCFD.PyGrid

/-- A list of intervals cuts `[a, b]` into pieces of one length: it starts at `a`, ends at `b`, each piece
starts where the one before it ends. -/
structure Uniform {K : Type*} [Field K] [LinearOrder K] (a b : K) (es : List (K × K)) : Prop where
  first : ∀ e : K × K, es[0]? = some e → e.1 = a
  last : ∀ e : K × K, es[es.length - 1]? = some e → e.2 = b
  chain : ∀ (i : Nat) (e e' : K × K), es[i]? = some e → es[i + 1]? = some e' → e.2 = e'.1
  size : ∀ (i : Nat) (e : K × K), es[i]? = some e → e.2 - e.1 = (b - a) / es.length
  proper : ∀ (i : Nat) (e : K × K), es[i]? = some e → e.1 < e.2

/-- The boundary conditions: none for a periodic grid, or the two given states. -/
abbrev Boundary (U : Type*) := Option (U × U)

/-- The face at the left end of element `i` of `n`. -/
def leftOf {U : Type*} (n : Nat) (bc : Boundary U) (i : Nat) : Face U :=
  if i = 0 then
    match bc with
    | none => .interface (n - 1) 0
    | some (u, _) => .inlet u 0 true
  else .interface (i - 1) i

/-- The face at the right end of element `i` of `n`. -/
def rightOf {U : Type*} (n : Nat) (bc : Boundary U) (i : Nat) : Face U :=
  if i + 1 = n then
    match bc with
    | none => .interface (n - 1) 0
    | some (_, u) => .inlet u (n - 1) false
  else .interface i (i + 1)

/-- The neighbour at the left of element `i`: the element before it; before the first one comes the last one,
moved by the length of the grid to the left, or nothing. -/
def leftNeighbour {K U : Type*} [Zero K] [Neg K] (n : Nat) (length : K) (bc : Boundary U) (i : Nat) : Option (Nat × K) :=
  if i = 0 then (if bc.isNone then some (n - 1, -length) else none) else some (i - 1, 0)

/-- The neighbour at the right of element `i`. -/
def rightNeighbour {K U : Type*} [Zero K] (n : Nat) (length : K) (bc : Boundary U) (i : Nat) : Option (Nat × K) :=
  if i + 1 = n then (if bc.isNone then some (0, length) else none) else some (i + 1, 0)

end MiniCFD.Spec.PyGrid
