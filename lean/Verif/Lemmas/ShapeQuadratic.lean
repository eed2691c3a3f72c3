import Verif.Lemmas.ShapeFlat
import Verif.Lemmas.ShapeSolid
import Verif.Lemmas.ShapeHex

/-! # Reproduction of quadratic functions -/

namespace MiniCFD.Shape

open MiniCFD.Spec.Shape

theorem quad_triangle6 (j k : Fin 2) :
    Reproduces (triangle6 ℝ).shapes (real (triangle6 ℝ).nodes) (fun p => p j * p k) := by
  intro p
  fin_cases j <;> fin_cases k <;> simp only [triangle6, real, embed, Fin.sum_univ_six, Fin.zero_eta,
    Fin.mk_one, Matrix.cons_val] <;> push_cast <;> ring

theorem quad_tetrahedron10 (j k : Fin 3) :
    Reproduces (tetrahedron10 ℝ).shapes (real (tetrahedron10 ℝ).nodes) (fun p => p j * p k) := by
  intro p
  fin_cases j <;> fin_cases k <;> simp only [tetrahedron10, real, embed, sum_ten, Fin.zero_eta,
    Fin.mk_one, Fin.reduceFinMk, Matrix.cons_val] <;> push_cast <;> ring

theorem quad_wedge18 (j k : Fin 3) :
    Reproduces (wedge18 ℝ).shapes (real (wedge18 ℝ).nodes) (fun p => p j * p k) := by
  intro p
  fin_cases j <;> fin_cases k <;> simp only [wedge18, real, embed, sum_eighteen, Fin.zero_eta,
    Fin.mk_one, Fin.reduceFinMk, Matrix.cons_val] <;> push_cast <;> ring

theorem quad_quadrangle8 (j k : Fin 2) :
    Reproduces (quadrangle8 ℝ).shapes (real (quadrangle8 ℝ).nodes) (fun p => p j * p k) := by
  refine reproduces_enrich' (g := fun p => if j = k then 1 else p j * p k) ?_ ?_
  · intro p
    fin_cases j <;> fin_cases k <;> simp only [quadrangle4, embed, Fin.sum_univ_four, Fin.zero_eta,
      Fin.mk_one, Fin.reduceFinMk, Fin.isValue, reduceIte, one_ne_zero, zero_ne_one,
      Matrix.cons_val] <;> push_cast <;> ring
  · intro p
    fin_cases j <;> fin_cases k <;> simp only [quadrangle8New, quadrangle8Nodes, embed,
      Fin.sum_univ_four, Fin.zero_eta, Fin.mk_one, Fin.reduceFinMk, Fin.isValue, reduceIte,
      one_ne_zero, zero_ne_one, Matrix.cons_val] <;> push_cast <;> ring

theorem quad_quadrangle9 (j k : Fin 2) :
    Reproduces (quadrangle9 ℝ).shapes (real (quadrangle9 ℝ).nodes) (fun p => p j * p k) :=
  reproduces_enrich (quad_quadrangle8 j k)

theorem sum_nine {M : Type*} [AddCommMonoid M] (f : Fin 9 → M) :
    ∑ i, f i = f 0 + f 1 + f 2 + f 3 + f 4 + f 5 + f 6 + f 7 + f 8 := by
  rw [Fin.sum_univ_castSucc, Fin.sum_univ_eight]
  rfl

theorem sum_twelve {M : Type*} [AddCommMonoid M] (f : Fin 12 → M) :
    ∑ i, f i = f 0 + f 1 + f 2 + f 3 + f 4 + f 5 + f 6 + f 7 + f 8 + f 9 + f 10 + f 11 := by
  iterate 4 rw [Fin.sum_univ_castSucc]
  rw [Fin.sum_univ_eight]
  rfl

/-- The interpolant of a quadratic monomial on the six-node wedge. -/
def wedgeLinear (j k : Fin 3) (p : Point ℝ 3) : ℝ :=
  if j = k then (if j = 2 then 1 else p j) else if j = 2 ∨ k = 2 then p j * p k else 0

theorem quad_wedge15 (j k : Fin 3) :
    Reproduces (wedge15 ℝ).shapes (real (wedge15 ℝ).nodes) (fun p => p j * p k) := by
  refine reproduces_enrich' (g := wedgeLinear j k) ?_ ?_
  · intro p
    fin_cases j <;> fin_cases k <;> simp only [wedgeLinear, wedge6, embed, Fin.sum_univ_six,
      Fin.zero_eta, Fin.mk_one, Fin.reduceFinMk, Fin.isValue, Fin.reduceEq, reduceIte, one_ne_zero,
      zero_ne_one, or_false, false_or, or_true, true_or, Matrix.cons_val] <;> push_cast <;> ring
  · intro p
    fin_cases j <;> fin_cases k <;> simp only [wedgeLinear, wedge15New, wedge15Nodes, embed, sum_nine,
      Fin.zero_eta, Fin.mk_one, Fin.reduceFinMk, Fin.isValue, Fin.reduceEq, reduceIte, one_ne_zero,
      zero_ne_one, or_false, false_or, or_true, true_or, Matrix.cons_val] <;> push_cast <;> ring

theorem hex20Nodes_eq : hex20Nodes = ![![0, -1, -1], ![1, 0, -1], ![0, 1, -1], ![-1, 0, -1],
    ![-1, -1, 0], ![1, -1, 0], ![1, 1, 0], ![-1, 1, 0],
    ![0, -1, 1], ![1, 0, 1], ![0, 1, 1], ![-1, 0, 1]] := by
  decide +kernel

theorem quad_hexahedron20 (j k : Fin 3) :
    Reproduces (hexahedron20 ℝ).shapes (real (hexahedron20 ℝ).nodes) (fun p => p j * p k) := by
  refine reproduces_enrich' (g := fun p => if j = k then 1 else p j * p k) ?_ ?_
  · intro p
    fin_cases j <;> fin_cases k <;> simp only [hexahedron8, cornerShape, hex8Nodes_eq, embed3,
      Fin.sum_univ_eight, Fin.zero_eta, Fin.mk_one, Fin.reduceFinMk, Fin.isValue, Fin.reduceEq,
      reduceIte, one_ne_zero, zero_ne_one, Matrix.cons_val, Rat.cast_neg, Rat.cast_one] <;> ring
  · intro p
    fin_cases j <;> fin_cases k <;> simp only [edges, edgeXShape, edgeYShape, edgeZShape,
      hex20Nodes_eq, embed3, sum_twelve, Fin.zero_eta, Fin.mk_one, Fin.reduceFinMk, Fin.isValue,
      Fin.reduceEq, reduceIte, one_ne_zero, zero_ne_one, Matrix.cons_val, Rat.cast_neg,
      Rat.cast_one, Rat.cast_zero] <;> ring

theorem quad_hexahedron26 (j k : Fin 3) :
    Reproduces (hexahedron26 ℝ).shapes (real (hexahedron26 ℝ).nodes) (fun p => p j * p k) :=
  reproduces_enrich (quad_hexahedron20 j k)

theorem quad_hexahedron27 (j k : Fin 3) :
    Reproduces (hexahedron27 ℝ).shapes (real (hexahedron27 ℝ).nodes) (fun p => p j * p k) := by
  refine Quadratic.reproduces fun p l t => ?_
  simp only [put]
  split_ifs <;> ring

end MiniCFD.Shape
