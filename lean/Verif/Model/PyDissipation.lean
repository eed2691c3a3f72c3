import Verif.Model.PyFR

/-!
# Model of `get_dissipation_matrices` of python/element.py and of `_get_dissipation_rate` of python/viscosity.py

Elements and grids as in `Verif.Model.PyFR`.  A neighbour behind a periodic boundary is wrapped by `expansion.Shifted`,
which has the same length and passes on the derivatives at the ends.
-/

namespace MiniCFD.PyDissipation
open MiniCFD.PyQuad MiniCFD.PyExpansion MiniCFD.PyDG MiniCFD.PyFR

/-- The five matrices that `get_dissipation_matrices` returns. -/
structure Matrices (p : Nat) where
  b : Matrix (Fin (p + 1)) (Fin (p + 1)) ℝ
  c : Matrix (Fin (p + 1)) (Fin (p + 1)) ℝ
  d : Matrix (Fin (p + 1)) (Fin (p + 1)) ℝ
  e : Matrix (Fin (p + 1)) (Fin (p + 1)) ℝ
  f : Matrix (Fin (p + 1)) (Fin (p + 1)) ℝ

variable {p n : Nat}

/-- `LagrangeFR.get_dissipation_matrices`, element.py:299-368; `left` and `right` are the neighbours, if any. -/
noncomputable def matrices (g : Correction) (s : Setup p) (left right : Option (Setup p)) : Matrices p :=
  let a : Matrix (Fin (p + 1)) (Fin (p + 1)) ℝ := fun i j => nodeBasisDerivatives s i 1 j
  let gradients := fun k => correctionGradients g s (s.points k)
  let row := fun (s : Setup p) (k : Nat) (isLeft : Bool) => boundaryBasisDerivatives s k isLeft
  let h := s.coordinate.length
  let dMinusLeft : Fin (p + 1) → ℝ := match left with
    | none => 0
    | some l => interfaceGradient l.coordinate.length h (row s 0 true) ((1 / 2 : ℝ) • row s 1 true) (row s 2 true)
  let dMinusRight : Fin (p + 1) → ℝ := match right with
    | none => 0
    | some r => interfaceGradient h r.coordinate.length (-row s 0 false) ((1 / 2 : ℝ) • row s 1 false) (-row s 2 false)
  let dPlusLeft : Fin (p + 1) → ℝ := match left with
    | none => 0
    | some l => interfaceGradient l.coordinate.length h (-row l 0 false) ((1 / 2 : ℝ) • row l 1 false) (-row l 2 false)
  let dPlusRight : Fin (p + 1) → ℝ := match right with
    | none => 0
    | some r => interfaceGradient h r.coordinate.length (row r 0 true) ((1 / 2 : ℝ) • row r 1 true) (row r 2 true)
  { b := fun k j => ∑ l, a k l * a l j
    c := fun k j => ∑ l, ((gradients k).2 * row s 0 false l + (gradients k).1 * row s 0 true l) * a l j
    d := fun k j => (gradients k).2 * dMinusRight j + (gradients k).1 * dMinusLeft j
    e := fun k j => (gradients k).1 * dPlusLeft j
    f := fun k j => (gradients k).2 * dPlusRight j }

/-- The sum `mat_d += mat_b - mat_c`, viscosity.py:103. -/
def Matrices.own (m : Matrices p) : Matrix (Fin (p + 1)) (Fin (p + 1)) ℝ := m.d + (m.b - m.c)

/-- The index of the element whose expansion is `_left_expansion`, spatial.py:57-86. -/
def leftOf {V : Type*} (grid : Grid p n V) (i : Fin (n + 2)) : Option (Fin (n + 2)) :=
  if i = 0 then (match grid.boundary with
    | none => some (Fin.last _)
    | some _ => none)
  else some (i - 1)

/-- The index of the element whose expansion is `_right_expansion`, spatial.py:57-86. -/
def rightOf {V : Type*} (grid : Grid p n V) (i : Fin (n + 2)) : Option (Fin (n + 2)) :=
  if i = Fin.last _ then (match grid.boundary with
    | none => some 0
    | some _ => none)
  else some (i + 1)

/-- The matrices of element `i` of a grid. -/
noncomputable def matricesOf {V : Type*} (g : Correction) (grid : Grid p n V) (i : Fin (n + 2)) : Matrices p :=
  matrices g (grid.cells i).setup ((leftOf grid i).map fun j => (grid.cells j).setup)
    ((rightOf grid i).map fun j => (grid.cells j).setup)

open scoped Classical in
/-- `Energy._get_dissipation_rate` of a scalar equation, viscosity.py:100-117.  The weighted matrix is kept in the
element after the first call.  `assert dissipation < 0` fails: `none`. -/
noncomputable def rate (m : Matrices p) (s : Setup p) (column : Fin (p + 1) → ℝ) : Option ℝ :=
  let weighted := fun k j => s.integrator.weights k * m.own k j
  let dissipation := ∑ k, column k * ∑ j, weighted k j * column j
  if dissipation < 0 then some dissipation else none

end MiniCFD.PyDissipation
