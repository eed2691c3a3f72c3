import Mathlib.Data.Nat.Basic
import Mathlib.Tactic.Common

/-!
# Model of the sparse graphs and meshes handed to METIS

Covers `SparseGraph`, `SparseGraphWithDeleter` and `Mesh` of `include/mini/mesh/metis.hpp`
(lines 28-179) with the copy control that the compiler generates for them.  A `Mesh` has two vectors
of its own and a `SparseGraph` of raw pointers, which need not point into these vectors.

Simplifications: indices are naturals (negative ones are undefined behaviour in the code), integers do
not overflow, assertions are on.  Arrays live at addresses; pointers into the middle of arrays do not
occur.  An empty vector that was moved from has no array.
-/

namespace MiniCFD.MetisMesh

/-- An array on the heap: `outside = true` if it belongs to a vector of the calling program,
`false` if it belongs to a member of some `Mesh`. -/
structure Array' where
  outside : Bool
  items : List Int
deriving DecidableEq

/-- The members of `SparseGraph`, metis.hpp:31. -/
structure Graph where
  vertices : Nat
  range : Nat
  index : Nat
deriving DecidableEq

/-- The members of `Mesh`, metis.hpp:119-121: the arrays of `range_` and `index_`, and `graph_` with
`n_node_`, which are indeterminate (`none`) after `Mesh()` (metis.hpp:124). -/
structure Mesh where
  ownRange : Option Nat
  ownIndex : Option Nat
  view : Option (Graph × Int)
deriving DecidableEq

/-- The live arrays and the live `Mesh` objects by address. -/
structure Heap where
  arrays : Nat → Option Array'
  meshes : Nat → Option Mesh

/-- Replace what is at one address. -/
def put {α : Type} (f : Nat → Option α) (a : Nat) (o : Option α) : Nat → Option α :=
  fun b => if b = a then o else f b

/-- The allocator: the address must not be in use. -/
def alloc (h : Heap) (b : Nat) (x : Array') : Option Heap :=
  if h.arrays b = none then some { h with arrays := put h.arrays b (some x) } else none

/-- A vector gives its array back. -/
def release (h : Heap) : Option Nat → Heap
  | none => h
  | some b => { h with arrays := put h.arrays b none }

/-- Create, replace or remove a `Mesh` object. -/
def place (h : Heap) (a : Nat) (m : Option Mesh) : Heap := { h with meshes := put h.meshes a m }

/-- `vector::resize`: new entries are zeros. -/
def resized (xs : List Int) (n : Nat) : List Int := xs.take n ++ List.replicate (n - xs.length) 0

/-- The items of the array of a member vector; none of its own means empty. -/
def contents (h : Heap) : Option Nat → Option (List Int)
  | none => some []
  | some b => (h.arrays b).map Array'.items

/-- What a program can do. -/
inductive Op
  /-- A vector of the program, and writing to and destroying it. -/
  | vector (b : Nat) (xs : List Int)
  | write (b i : Nat) (x : Int)
  | free (b : Nat)
  /-- `Mesh()`. -/
  | default (a : Nat)
  /-- `Mesh(vector const &range, vector const &index, n_node)` with the vectors at `r` and `x`. -/
  | wrap (a r x : Nat) (n : Int)
  /-- `Mesh(vector &&range, vector &&index, n_node)`. -/
  | adopt (a r x : Nat) (n : Int)
  /-- `resize`; `r` and `x` are where the vectors are afterwards. -/
  | resize (a cells : Nat) (nodes : Int) (locals r x : Nat)
  /-- The generated copy control; `r` and `x` are where the copies of the vectors are. -/
  | copyConstruct (d s r x : Nat)
  | copyAssign (d s r x : Nat)
  | moveConstruct (d s : Nat)
  | moveAssign (d s : Nat)
  | destroy (a : Nat)
  /-- `range(i) = v` and `nodes(i) = v`. -/
  | setRange (a i : Nat) (v : Int)
  | setNodes (a i : Nat) (v : Int)

/-- Read one item through a pointer, `none` outside a live array. -/
def load (h : Heap) (b i : Nat) : Option Int := (h.arrays b).bind fun x => x.items[i]?

/-- Write one item through a pointer. -/
def save (h : Heap) (b i : Nat) (v : Int) : Option Heap :=
  (h.arrays b).bind fun x =>
    if i < x.items.length then some { h with arrays := put h.arrays b (some { x with items := x.items.set i v }) } else none

/-- The pointers of a live mesh, unless indeterminate. -/
def viewOf (h : Heap) (a : Nat) : Option (Graph × Int) := (h.meshes a).bind Mesh.view

/-- `range(i)`, metis.hpp:143-145 with 47-49. -/
def range (h : Heap) (a i : Nat) : Option Int := (viewOf h a).bind fun g => load h g.1.range i

/-- `nodes(i)`, metis.hpp:146-148 with 50-52. -/
def nodes (h : Heap) (a i : Nat) : Option Int := (viewOf h a).bind fun g => load h g.1.index i

/-- `CountCells`, metis.hpp:149-151. -/
def countCells (h : Heap) (a : Nat) : Option Nat := (viewOf h a).map fun g => g.1.vertices

/-- `CountNodes`, metis.hpp:155-157. -/
def countNodes (h : Heap) (a : Nat) : Option Int := (viewOf h a).map Prod.snd

/-- `CountLocalNodes`, metis.hpp:152-154 with 56-58. -/
def countLocalNodes (h : Heap) (a : Nat) : Option Int := (viewOf h a).bind fun g => load h g.1.range g.1.vertices

/-- The constructor of metis.hpp:130-134 and the one it delegates to (125-129): pointers into the arguments.
`max_element` of an empty array is dereferenced: undefined. -/
def wrap (h : Heap) (a r x : Nat) (n : Int) : Option Heap :=
  if h.meshes a = none then
    match h.arrays r, h.arrays x with
    | some ⟨true, rs⟩, some ⟨true, xs⟩ =>
      if rs ≠ [] ∧ xs ≠ [] ∧ rs.getLast? = some (xs.length : Int) ∧ ∀ y ∈ xs, y < n then
        some (place h a (some ⟨none, none, some (⟨rs.length - 1, r, x⟩, n)⟩))
      else none
    | _, _ => none
  else none

/-- The constructor of metis.hpp:135-140: the arrays change hands and the vectors of the caller are empty. -/
def adopt (h : Heap) (a r x : Nat) (n : Int) : Option Heap :=
  if h.meshes a = none ∧ r ≠ x then
    match h.arrays r, h.arrays x with
    | some ⟨true, rs⟩, some ⟨true, xs⟩ =>
      if rs ≠ [] ∧ rs.getLast? = some (xs.length : Int) then
        some (place { h with arrays := put (put h.arrays r (some ⟨false, rs⟩)) x (some ⟨false, xs⟩) } a
          (some ⟨some r, some x, some (⟨rs.length - 1, r, x⟩, n)⟩))
      else none
    | _, _ => none
  else none

/-- `resize`, metis.hpp:171-179. The vectors may stay or move; old items stay. -/
def resize (h : Heap) (a cells : Nat) (nodes : Int) (locals r x : Nat) : Option Heap :=
  if 0 < cells ∧ 0 < nodes ∧ 0 < locals then
    (h.meshes a).bind fun m =>
    (contents h m.ownRange).bind fun rs =>
    (contents h m.ownIndex).bind fun xs =>
    (alloc (release (release h m.ownRange) m.ownIndex) r ⟨false, resized rs (cells + 1)⟩).bind fun h =>
    (alloc h x ⟨false, resized xs locals⟩).map fun h =>
    place h a (some ⟨some r, some x, some (⟨cells, r, x⟩, nodes)⟩)
  else none

/-- The copy of one member vector; nothing to allocate for an empty one. -/
def copied (h : Heap) (old : Option Nat) (xs : List Int) (b : Nat) : Option (Heap × Option Nat) :=
  match old with
  | none => some (h, none)
  | some _ => (alloc h b ⟨false, xs⟩).map fun h => (h, some b)

/-- The generated copy (metis.hpp:118-121 declares none): the vectors are copied, the pointers too. -/
def copy (h : Heap) (d : Nat) (m : Mesh) (rs xs : List Int) (r x : Nat) : Option Heap :=
  (copied h m.ownRange rs r).bind fun p =>
  (copied p.1 m.ownIndex xs x).map fun q =>
  place q.1 d (some ⟨p.2, q.2, m.view⟩)

/-- The generated move: the vectors change hands, the pointers are copied. -/
def move (h : Heap) (d s : Nat) (m : Mesh) : Heap :=
  place (place h s (some { m with ownRange := none, ownIndex := none })) d (some m)

/-- One operation; `none` is undefined behaviour or a failed assertion. -/
def step (h : Heap) : Op → Option Heap
  | .vector b xs => alloc h b ⟨true, xs⟩
  | .write b i v => (h.arrays b).bind fun x => if x.outside then save h b i v else none
  | .free b => (h.arrays b).bind fun x => if x.outside then some (release h (some b)) else none
  | .default a => if h.meshes a = none then some (place h a (some ⟨none, none, none⟩)) else none
  | .wrap a r x n => wrap h a r x n
  | .adopt a r x n => adopt h a r x n
  | .resize a c n l r x => resize h a c n l r x
  | .copyConstruct d s r x =>
    if h.meshes d = none then
      (h.meshes s).bind fun m => (contents h m.ownRange).bind fun rs => (contents h m.ownIndex).bind fun xs => copy h d m rs xs r x
    else none
  | .copyAssign d s r x =>
    (h.meshes d).bind fun old =>
    (h.meshes s).bind fun m =>
    if d = s then some h
    else (contents h m.ownRange).bind fun rs => (contents h m.ownIndex).bind fun xs =>
      copy (release (release h old.ownRange) old.ownIndex) d m rs xs r x
  | .moveConstruct d s => if h.meshes d = none then (h.meshes s).map fun m => move h d s m else none
  | .moveAssign d s =>
    if d = s then none
    else (h.meshes d).bind fun old => (h.meshes s).map fun m => move (release (release h old.ownRange) old.ownIndex) d s m
  | .destroy a => (h.meshes a).map fun m => place (release (release h m.ownRange) m.ownIndex) a none
  | .setRange a i v => (viewOf h a).bind fun g => save h g.1.range i v
  | .setNodes a i v => (viewOf h a).bind fun g => save h g.1.index i v

/-- A whole program. -/
def run (h : Heap) : List Op → Option Heap
  | [] => some h
  | o :: os => (step h o).bind fun h => run h os

/-! ### Rows of a graph -/

/-- `neighbors(i)`, metis.hpp:74-77: the items from `range(i)` up to `range(i + 1)`. Backwards or outside of the
array is undefined. -/
def neighbors (range index : List Int) (i : Nat) : Option (List Int) :=
  range[i]?.bind fun first => range[i + 1]?.bind fun last =>
    if 0 ≤ first ∧ first ≤ last ∧ last ≤ index.length then
      some ((index.drop first.toNat).take (last - first).toNat)
    else none

/-- `CountNeighbors(i)`, metis.hpp:65-67. -/
def countNeighbors (range : List Int) (i : Nat) : Option Int :=
  range[i]?.bind fun first => range[i + 1]?.map fun last => last - first

/-! ### Graphs that own the arrays of METIS -/

/-- What happens to `SparseGraphWithDeleter`s: METIS hands out two arrays and one object gets them (metis.hpp:95-97,
198); the generated copy constructor; the destructor (103-107). -/
inductive DualOp
  | create (a r x : Nat)
  | copyConstruct (d s : Nat)
  | destroy (a : Nat)

/-- Live arrays of METIS, and live objects with their two pointers. -/
structure DualHeap where
  arrays : Nat → Bool
  graphs : Nat → Option (Nat × Nat)

/-- One operation; `METIS_Free` of an array that is not live is undefined. -/
def dualStep (h : DualHeap) : DualOp → Option DualHeap
  | .create a r x =>
    if h.graphs a = none ∧ h.arrays r = false ∧ h.arrays x = false ∧ r ≠ x then
      some ⟨fun b => if b = r ∨ b = x then true else h.arrays b, put h.graphs a (some (r, x))⟩
    else none
  | .copyConstruct d s =>
    if h.graphs d = none then (h.graphs s).map fun g => { h with graphs := put h.graphs d (some g) } else none
  | .destroy a => (h.graphs a).bind fun g =>
    if h.arrays g.1 ∧ h.arrays g.2 then
      some ⟨fun b => if b = g.1 ∨ b = g.2 then false else h.arrays b, put h.graphs a none⟩
    else none

/-- A whole program. -/
def dualRun (h : DualHeap) : List DualOp → Option DualHeap
  | [] => some h
  | o :: os => (dualStep h o).bind fun h => dualRun h os

end MiniCFD.MetisMesh
