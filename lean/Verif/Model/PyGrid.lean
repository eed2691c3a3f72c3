import Mathlib.Algebra.Order.Field.Basic
import Mathlib.Data.Nat.Cast.Order.Field
import Mathlib.Logic.Function.Basic

/-!
Model of the one-dimensional grids of the Python code: `concept.Grid`, `concept.SpatialScheme.__init__`
(concept.py:873-964, 1062-1076) and `spatial.FiniteElement` (spatial.py:18-160): the elements, the search for
the element that contains a point, the faces and neighbours of each element, and the layout of the columns.
-/

namespace MiniCFD.PyGrid

section Elements

variable {K : Type*} [Field K] [LinearOrder K]

/-- The loop of `FiniteElement.__init__`, spatial.py:30-38: each element starts where the one before it
ends.  The two `assert_almost_equal`s (spatial.py:32, 39) compare floating-point sums with products; in exact
arithmetic both sides agree (`Props/PyGrid.lean`), so they are left out. -/
def buildElements (deltaX : K) : Nat → K → List (K × K)
  | 0, _ => []
  | n + 1, xLeft => (xLeft, xLeft + deltaX) :: buildElements deltaX n (xLeft + deltaX)

/-- `FiniteElement.__init__`, spatial.py:22-40, with the assertions of concept.py:1069-1070.  An element is
the pair of its ends (`coordinate.Linear`). -/
def elements (n : Nat) (xLeft xRight : K) : Option (List (K × K)) :=
  if xLeft < xRight ∧ 1 < n then some (buildElements ((xRight - xLeft) / n) n xLeft) else none

/-- `bisect.bisect_right(a, x)` of the Python library, on `a[lo:hi]`; an index beyond the array raises. -/
def bisectRight (a : List K) (x : K) (lo hi : Nat) : Option Nat :=
  if lo < hi then
    match a[(lo + hi) / 2]? with
    | none => none
    | some m =>
      if x < m then bisectRight a x lo ((lo + hi) / 2) else bisectRight a x ((lo + hi) / 2 + 1) hi
  else some lo
termination_by hi - lo
decreasing_by all_goals omega

/-- `get_element_index`, spatial.py:45-48; `_x_left_sorted` holds the left ends (spatial.py:33). -/
def elementIndex (es : List (K × K)) (x : K) : Option Int :=
  (bisectRight (es.map Prod.fst) x 0 es.length).map fun i => (i : Int) - 1

/-- Indexing of a Python array: a negative index counts from the end. -/
def pyGet {α : Type*} (l : List α) (i : Int) : Option α :=
  if 0 ≤ i then l[i.toNat]? else if 0 ≤ i + l.length then l[(i + l.length).toNat]? else none

/-- `Grid.get_element`, concept.py:895-898. -/
def getElement (es : List (K × K)) (x : K) : Option (K × K) :=
  (elementIndex es x).bind (pyGet es)

/-- `FiniteElement.get_solution_value`, spatial.py:50-51, for an array of what `get_solution_value` of each
element computes. -/
def solutionValue {V : Type*} (es : List (K × K)) (values : List (K → V)) (x : K) : Option V :=
  (elementIndex es x).bind fun i => (pyGet values i).map fun u => u x

end Elements

section Links

variable {K U : Type*}

/-- A `Face` object: `concept.Interface` (concept.py:836-848), by the indices of its elements, or
`concept.Inlet` (concept.py:851-870), by the index of its element, its side and the given state. -/
inductive Face (U : Type*) where
  | interface (left right : Nat)
  | inlet (given : U) (cell : Nat) (left : Bool)

/-- What `concept.Grid` and its elements hold.  `objects` lists every `Face` object made so far; a reference
is the position in this list.  `faces` is the array `_faces` of `n + 1` slots (concept.py:877), `leftFace`
and `rightFace` are `_left_face` and `_right_face` of each element (concept.py:545-546).
A neighbour's expansion (`_left_expansion`, `_right_expansion`, concept.py:547-548) is the index of the
element it belongs to and the shift of the wrapper `expansion.Shifted` (0 without wrapper). -/
structure Links (K U : Type*) where
  n : Nat
  objects : List (Face U)
  faces : Nat → Option Nat
  leftFace : Nat → Option Nat
  rightFace : Nat → Option Nat
  leftExpansion : Nat → Option (Nat × K)
  rightExpansion : Nat → Option (Nat × K)
  periodic : Bool

/-- `Grid.__init__`, concept.py:875-878, with the elements' own fields (concept.py:545-548). -/
def Links.blank (n : Nat) : Links K U :=
  ⟨n, [], fun _ => none, fun _ => none, fun _ => none, fun _ => none, fun _ => none, true⟩

/-- The index `i - 1` of `get_element_by_index(i - 1)`: `-1` is the last element. -/
def previous (n i : Nat) : Nat := if i = 0 then n - 1 else i - 1

/-- `Grid.build_interface`, concept.py:928-938. -/
def Links.buildInterface (s : Links K U) (i : Nat) : Links K U :=
  let left := previous s.n i
  let face := s.objects.length
  let faces := Function.update s.faces i (some face)
  { s with
    objects := s.objects ++ [.interface left i]
    leftFace := Function.update s.leftFace i (some face)
    rightFace := Function.update s.rightFace left (some face)
    faces := if i = 0 then Function.update faces s.n (some face) else faces }

/-- One pass of the loop of `link_neighbors`, spatial.py:62-68. -/
def Links.linkInner [Zero K] (s : Links K U) (i : Nat) : Links K U :=
  let s := s.buildInterface i
  { s with
    leftExpansion := Function.update s.leftExpansion i (some (i - 1, 0))
    rightExpansion := Function.update s.rightExpansion i (some (i + 1, 0)) }

/-- Whether a slot of `_faces` holds an `Inlet` (the `isinstance` of spatial.py:83-84). -/
def Links.isInlet (s : Links K U) (i : Nat) : Bool :=
  match s.faces i with
  | none => false
  | some k => match s.objects[k]? with
    | some (.inlet ..) => true
    | _ => false

/-- `FiniteElement.link_neighbors`, spatial.py:57-86; `length` is `self.length()`; a failed assertion is
`none`. -/
def Links.linkNeighbors [Zero K] [Neg K] (length : K) (s : Links K U) : Option (Links K U) :=
  let n := s.n
  let s := { s with rightExpansion := Function.update s.rightExpansion 0 (some (1, 0)) }
  let s := (List.range' 1 (n - 2)).foldl Links.linkInner s
  let s := s.buildInterface (n - 1)
  let s := { s with leftExpansion := Function.update s.leftExpansion (n - 1) (some (n - 2, 0)) }
  if s.periodic then
    if (s.faces 0).isNone && (s.faces n).isNone then
      let s := s.buildInterface 0
      some { s with
        leftExpansion := Function.update s.leftExpansion 0 (some (n - 1, -length))
        rightExpansion := Function.update s.rightExpansion (n - 1) (some (0, length)) }
    else none
  else
    if s.isInlet 0 && s.isInlet n then
      some { s with
        leftExpansion := Function.update s.leftExpansion 0 none
        rightExpansion := Function.update s.rightExpansion (n - 1) none }
    else none

/-- The links of a new grid: `Grid.__init__` and spatial.py:40. -/
def Links.init [Zero K] [Neg K] (length : K) (n : Nat) : Option (Links K U) :=
  if 1 < n then (Links.blank n).linkNeighbors length else none

/-- `Grid.set_boundary_values`, concept.py:940-954.  The assertions let `None` pass, but `Inlet.__init__`
then fails in `0 * u_given` (concept.py:860). -/
def Links.setBoundary [Zero K] [Neg K] (length : K) (s : Links K U) (uLeft uRight : Option U) :
    Option (Links K U) :=
  match uLeft, uRight with
  | some ul, some ur =>
    let k := s.objects.length
    let s := { s with
      periodic := false
      objects := s.objects ++ [Face.inlet ul 0 true, Face.inlet ur (s.n - 1) false]
      leftFace := Function.update s.leftFace 0 (some k)
      rightFace := Function.update s.rightFace (s.n - 1) (some (k + 1))
      faces := Function.update (Function.update s.faces 0 (some k)) s.n (some (k + 1)) }
    s.linkNeighbors length
  | _, _ => none

/-- The slots of `_faces` whose objects `get_residual_column` solves, spatial.py:137-139. -/
def Links.solved (s : Links K U) : List Nat := List.range (s.n + if s.periodic then 0 else 1)

/-- What the `Face` objects hold after these calls: `solve` of each object writes the value `f` of the object
into it (spatial.py:137-139); the slots must not be empty. -/
def Links.solve {F : Type*} (s : Links K U) (f : Face U → F) : List Nat → (Nat → Option F) → Option (Nat → Option F)
  | [], held => some held
  | i :: is, held =>
    match s.faces i with
    | none => none
    | some k => match s.objects[k]? with
      | none => none
      | some o => s.solve f is (Function.update held k (some (f o)))

/-- What element `i` reads off its two faces, spatial.py:150-154. -/
def Links.read {F : Type*} (s : Links K U) (held : Nat → Option F) (i : Nat) : Option (F × F) :=
  match s.leftFace i, s.rightFace i with
  | some l, some r => match held l, held r with
    | some fl, some fr => some (fl, fr)
    | _, _ => none
  | _, _ => none

/-- The `Riemann` problems `FluxReconstruction.get_flux_value` solves at the ends of element `i`,
spatial.py:241-253. -/
def fluxValueFaces (n i : Nat) : (Nat × Nat) × (Nat × Nat) :=
  ((previous n i, i), (i, (i + 1) % n))

end Links

section Columns

variable {α : Type*}

/-- The pairs (row, column) in the order of the two loops `for i_col …: for i_row …` (concept.py:687-688 and
706-707, spatial.py:117-120). -/
def slots (rows cols : Nat) : List (Nat × Nat) :=
  (List.range cols).flatMap fun c => (List.range rows).map fun r => (r, c)

/-- `Element.set_solution_coeff`, concept.py:673-693: the loop with its counter `i_dof` and the assertion
at its end.  `coeff` are the coefficients to be overwritten. -/
def readLoop (column : List α) : List (Nat × Nat) → Nat → (Nat → Nat → α) → Option (Nat → Nat → α)
  | [], i, coeff => if i = column.length then some coeff else none
  | (r, c) :: rest, i, coeff =>
    match column[i]? with
    | none => none
    | some v => readLoop column rest (i + 1) fun r' c' => if r' = r ∧ c' = c then v else coeff r' c'

/-- `Element.get_solution_column`, concept.py:695-713, and `_write_to_column`, spatial.py:110-121: the
values in the order they are written. -/
def writeLoop (rows cols : Nat) (coeff : Nat → Nat → α) : List α := (slots rows cols).map fun s => coeff s.1 s.2

/-- `FiniteElement.set_solution_column`, spatial.py:88-96, without the limiter of line 97: each element
takes its slice.  The list holds the coefficients of the elements. -/
def setColumns (rows cols : Nat) : List (Nat → Nat → α) → List α → Option (List (Nat → Nat → α))
  | [], column => if column.length = 0 then some [] else none
  | e :: es, column =>
    match readLoop (column.take (rows * cols)) (slots rows cols) 0 e, setColumns rows cols es (column.drop (rows * cols)) with
    | some e', some es' => some (e' :: es')
    | _, _ => none

/-- `set_solution_column` with the assertion of spatial.py:89. -/
def setSolutionColumn (rows cols : Nat) (es : List (Nat → Nat → α)) (column : List α) :
    Option (List (Nat → Nat → α)) :=
  if column.length = es.length * (rows * cols) then setColumns rows cols es column else none

/-- `FiniteElement.get_solution_column`, spatial.py:99-108; `get_residual_column` writes the residuals of
the elements in the same way (spatial.py:143-160). -/
def getSolutionColumn (rows cols : Nat) (es : List (Nat → Nat → α)) : List α := es.flatMap (writeLoop rows cols)

end Columns

end MiniCFD.PyGrid
