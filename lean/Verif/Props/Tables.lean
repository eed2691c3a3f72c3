import Verif.Model.Tables
import Verif.Spec.SortNodes
import Mathlib.Data.List.Perm.Basic
import Mathlib.Data.Fintype.Basic

/-! # C50: the tables by element type and the symmetric indices -/

namespace MiniCFD.Tables

open MiniCFD.Shape

/-! ### Symmetric indices -/

/-- **C50.**  Two pairs of axes have the same slot exactly when they are the same up to order, and every slot is
used. -/
theorem sym2_slots : (∀ i j k l : Fin 3, sym2 i j = sym2 k l ↔ [i, j].Perm [k, l]) ∧
    ∀ s, ∃ i j, sym2 i j = s := by decide

/-- **C50.**  The same for triples. -/
theorem sym3_slots : (∀ i j k l m n : Fin 3, sym3 i j k = sym3 l m n ↔ [i, j, k].Perm [l, m, n]) ∧
    ∀ s, ∃ i j k, sym3 i j k = s := by decide +kernel

/-- **C50.**  Differentiating twice and then once more lands in the slot of the triple whatever slots the steps
went through: equal pairs extend to equal triples. -/
theorem sym3_extends (i j k l m : Fin 3) (h : sym2 i j = sym2 k l) : sym3 i j m = sym3 k l m ∧
    sym3 m i j = sym3 m k l := by revert i j k l m; decide

/-! ### Numbers of nodes and faces -/

/-- The class of geometry which a type of CGNS denotes, from the CGNS standard. -/
def kindOf : ElementType → Option Kind
  | .tri3 => some .triangle3
  | .tri6 => some .triangle6
  | .quad4 => some .quadrangle4
  | .quad8 => some .quadrangle8
  | .quad9 => some .quadrangle9
  | .tetra4 => some .tetrahedron4
  | .tetra10 => some .tetrahedron10
  | .pyra5 => some .pyramid5
  | .pyra13 => some .pyramid13
  | .pyra14 => some .pyramid14
  | .penta6 => some .wedge6
  | .penta15 => some .wedge15
  | .penta18 => some .wedge18
  | .hexa8 => some .hexahedron8
  | .hexa20 => some .hexahedron20
  | .hexa27 => some .hexahedron27
  | _ => none

/-- **C50.**  The numbers of nodes are those of the classes, for every type that has a class. -/
theorem nodes_agree (t : ElementType) (k : Kind) (h : kindOf t = some k) : countNodesByType t = k.count := by
  cases t <;> simp only [kindOf, reduceCtorEq, Option.some.injEq] at h <;> subst h <;> rfl

/-- The solid a class is a version of. -/
def solidOf : Kind → Option Spec.SortNodes.Shape
  | .tetrahedron4 | .tetrahedron10 => some .tetrahedron
  | .pyramid5 | .pyramid13 | .pyramid14 => some .pyramid
  | .wedge6 | .wedge15 | .wedge18 => some .wedge
  | .hexahedron8 | .hexahedron20 | .hexahedron26 | .hexahedron27 => some .hexahedron
  | _ => none

/-- The number of corners of a plane class. -/
def sidesOf : Kind → Option Nat
  | .triangle3 | .triangle6 => some 3
  | .quadrangle4 | .quadrangle8 | .quadrangle9 => some 4
  | _ => none

/-- **C50.**  The numbers of faces are the numbers of planes that bound the solids, and for plane elements the
numbers of sides. -/
theorem faces_agree (t : ElementType) (k : Kind) (h : kindOf t = some k) :
    (∀ s, solidOf k = some s → countFacesByType t = s.planes.length) ∧
      (∀ n, sidesOf k = some n → countFacesByType t = n) ∧
      ((solidOf k).isSome ↔ k.dim = 3) ∧ ((sidesOf k).isSome ↔ k.dim = 2) := by
  cases t <;> simp only [kindOf, reduceCtorEq, Option.some.injEq] at h <;> subst h <;>
    simp [solidOf, sidesOf, countFacesByType, Spec.SortNodes.Shape.planes, Kind.dim]

/-- **C50.**  For the types outside the table the number of faces returned is the number of nodes of the CGNS
library. -/
theorem faces_other (n : Nat) : countFacesByType (.other n) = n := rfl

/-- **C50.**  The switches on the number of nodes rebuild the class of the type: for every type that `dim` takes
for a cell or a face, and for pyramids. -/
theorem build_agrees (t : ElementType) :
    (dim t = 3 → ∃ k, kindOf t = some k ∧ buildGaussForCell (countNodesByType t) = some k ∧ k.dim = 3) ∧
      (dim t = 2 → ∃ k, kindOf t = some k ∧ buildGaussForFace (countNodesByType t) = some k ∧ k.dim = 2) ∧
      (t = .pyra5 → ∃ k, kindOf t = some k ∧ buildGaussForCell (countNodesByType t) = some k) := by
  refine ⟨fun h => ?_, fun h => ?_, fun h => ?_⟩
  · cases t <;> simp [dim] at h <;> exact ⟨_, rfl, rfl, rfl⟩
  · cases t <;> simp [dim] at h <;> exact ⟨_, rfl, rfl, rfl⟩
  · subst h; exact ⟨_, rfl, rfl⟩

/-- **C50.**  `CheckTypeDim` accepts a type of cell exactly when it is `MIXED`, or a plane or solid type whose
dimension in the table `dim` is the given one. -/
theorem check_iff (t : ElementType) (d : Int) :
    checkTypeDim t d = true ↔ t = .mixed ∨ (2 ≤ dim t ∧ dim t = d) := by
  cases t <;> simp [checkTypeDim, dim] <;> exact eq_comm

/-- **C50.**  Of the solids that the code builds from sections, pyramids are the ones which neither table lists
as solids: `dim` aborts or returns -1 and `CheckTypeDim` refuses them in every dimension. -/
theorem pyramids_left_out (t : ElementType) (k : Kind) (h : kindOf t = some k)
    (hb : buildGaussForCell (countNodesByType t) = some k) :
    (t = .pyra5 ↔ dim t ≠ 3) ∧ (t = .pyra5 ↔ dimAsserts t = false) ∧
      (t = .pyra5 ↔ ∀ d, checkTypeDim t d = false) := by
  cases t <;> simp only [kindOf, reduceCtorEq, Option.some.injEq] at h <;> subst h <;>
    simp [countNodesByType, buildGaussForCell] at hb <;> simp [dim, dimAsserts, checkTypeDim]

example : kindOf .pyra5 = some .pyramid5 ∧ buildGaussForCell (countNodesByType .pyra5) = some .pyramid5 ∧
    dim .pyra5 = -1 := ⟨rfl, rfl, rfl⟩

example : kindOf .hexa8 = some .hexahedron8 ∧ solidOf .hexahedron8 = some .hexahedron ∧ dim .hexa8 = 3 :=
  ⟨rfl, rfl, rfl⟩

end MiniCFD.Tables
