import Mathlib.Data.Real.Basic
import Mathlib.Algebra.BigOperators.Fin
import Mathlib.Data.Fin.VecNotation
import Verif.Model.Source

/-! # The part of a segment in a tetrahedron -/

namespace MiniCFD.Spec.Source

open MiniCFD.Frame MiniCFD.Source

/-- `x` is the point of weights `w`, which add up to one. -/
def IsPoint (v : Fin 4 → Vec) (w : Fin 4 → ℝ) (x : Vec) : Prop := ∑ j, w j = 1 ∧ x = ∑ j, w j • v j

/-- The four corners are not in one plane. -/
def Solid (v : Fin 4 → Vec) : Prop := ∀ w : Fin 4 → ℝ, ∑ j, w j = 0 → ∑ j, w j • v j = 0 → w = 0

/-- The (closed) tetrahedron. -/
def Inside (v : Fin 4 → Vec) (x : Vec) : Prop := ∃ w, IsPoint v w x ∧ ∀ j, 0 ≤ w j

/-- Its interior. -/
def Interior (v : Fin 4 → Vec) (x : Vec) : Prop := ∃ w, IsPoint v w x ∧ ∀ j, 0 < w j

/-- `x` is on the side opposite to corner `i`. -/
def OnSide (v : Fin 4 → Vec) (i : Fin 4) (x : Vec) : Prop := ∃ w, IsPoint v w x ∧ (∀ j, 0 ≤ w j) ∧ w i = 0

/-- `x` is in the plane of that side. -/
def InPlane (v : Fin 4 → Vec) (i : Fin 4) (x : Vec) : Prop := ∃ w, IsPoint v w x ∧ w i = 0

/-- The point at `t` of the segment from `p` to `q`. -/
def along (p q : Vec) (t : ℝ) : Vec := p + t • (q - p)

/-- The ratios at which the segment is in the tetrahedron. -/
def Clip (v : Fin 4 → Vec) (p q : Vec) (t : ℝ) : Prop := 0 ≤ t ∧ t ≤ 1 ∧ Inside v (along p q t)

/-- The triangle is the side opposite to corner `i`, its corners in any order. -/
def IsSide (v : Fin 4 → Vec) (i : Fin 4) (f : Triangle) : Prop :=
  ∃ j k l : Fin 4, [i, j, k, l].Nodup ∧ f = ⟨v j, v k, v l⟩

/-- The triangles are the sides opposite to the corners in `order`, which are different; all sides if `order` has all
corners. -/
def AreSides (v : Fin 4 → Vec) (order : List (Fin 4)) (faces : List Triangle) : Prop :=
  order.Nodup ∧ List.Forall₂ (IsSide v) order faces

/-- No side's plane contains the segment. -/
def OffPlanes (v : Fin 4 → Vec) (p q : Vec) : Prop := ∀ i, ¬ (InPlane v i p ∧ InPlane v i q)

/-- The segment does not meet two sides at one point, that is, it meets no edge. -/
def OffEdges (v : Fin 4 → Vec) (p q : Vec) : Prop :=
  ∀ t, 0 ≤ t → t ≤ 1 → ∀ i j, OnSide v i (along p q t) → OnSide v j (along p q t) → i = j

end MiniCFD.Spec.Source

namespace MiniCFD.Spec.Source

open MiniCFD.Frame MiniCFD.Source MiniCFD.Residual MiniCFD.Projection

/-- What a force `f` on the air, whose conservative variables are `u`, adds to the equations of mass, momentum and
energy: nothing, the force, and its power. -/
noncomputable def strength (u : Value 5) (f : Vec) : Fin 5 → ℝ :=
  ![0, f 0, f 1, f 2, (f 0 * u 1 + f 1 * u 2 + f 2 * u 3) / u 0]

/-- The forces reported, each at its point and with its weight, tested with basis function `i` of a cell. -/
noncomputable def work {n : Nat} (c : Cell Vec 5 n) (reports : List Reported) (row : Fin 5) (i : Fin (n + 1)) : ℝ :=
  (reports.map fun fxw => fxw.2.2 * strength (c.value fxw.2.1) fxw.1 row * c.basis fxw.2.1 i).sum

end MiniCFD.Spec.Source
