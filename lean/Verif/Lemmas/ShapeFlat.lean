import Verif.Lemmas.Shape

/-! # Triangles, quadrangles and tetrahedra -/

namespace MiniCFD.Shape

open MiniCFD.Spec.Shape

/-! ### Triangles -/

theorem sound_triangle3 : Sound (triangle3 ℝ) id where
  cardinal := by
    refine cardinal_of_rat (M := (triangle3 ℚ).shapes) ?_ (by decide +kernel)
    intro q i
    fin_cases i <;> simp only [triangle3, embed, Fin.zero_eta, Fin.mk_one, Fin.reduceFinMk,
      Matrix.cons_val] <;> push_cast <;> ring
  unity p := by
    simp only [triangle3, Fin.sum_univ_three, Matrix.cons_val]
    ring
  linear j := by
    intro p
    fin_cases j <;> simp only [triangle3, real, embed, Fin.sum_univ_three, Fin.zero_eta, Fin.mk_one,
      Matrix.cons_val, id] <;> push_cast <;> ring
  grads i j := by
    refine deriv_of_bend fun p t => ?_
    fin_cases j <;> fin_cases i <;> simp only [bend, triangle3, shift, Fin.zero_eta, Fin.mk_one,
      Fin.reduceFinMk, Fin.isValue, Fin.reduceEq, reduceIte, Matrix.cons_val] <;> ring

theorem sound_triangle6 : Sound (triangle6 ℝ) id where
  cardinal := by
    refine cardinal_of_rat (M := (triangle6 ℚ).shapes) ?_ (by decide +kernel)
    intro q i
    fin_cases i <;> simp only [triangle6, embed, Fin.zero_eta, Fin.mk_one, Fin.reduceFinMk,
      Matrix.cons_val] <;> push_cast <;> ring
  unity p := by
    simp only [triangle6, Fin.sum_univ_six, Matrix.cons_val]
    ring
  linear j := by
    intro p
    fin_cases j <;> simp only [triangle6, real, embed, Fin.sum_univ_six, Fin.zero_eta, Fin.mk_one,
      Matrix.cons_val, id] <;> push_cast <;> ring
  grads i j := by
    refine deriv_of_bend fun p t => ?_
    fin_cases j <;> fin_cases i <;> simp only [bend, triangle6, shift, Fin.zero_eta, Fin.mk_one,
      Fin.reduceFinMk, Fin.isValue, Fin.reduceEq, reduceIte, Matrix.cons_val] <;> ring

/-! ### Quadrangles -/

theorem sound_quadrangle4 : Sound (quadrangle4 ℝ) id where
  cardinal := by
    refine cardinal_of_rat (M := (quadrangle4 ℚ).shapes) ?_ (by decide +kernel)
    intro q i
    simp only [quadrangle4, embed, Rat.cast_id]
    push_cast
    ring
  unity p := by
    simp only [quadrangle4, embed, Fin.sum_univ_four, Matrix.cons_val]
    push_cast
    ring
  linear j := by
    intro p
    fin_cases j <;> simp only [quadrangle4, real, embed, Fin.sum_univ_four, Fin.zero_eta, Fin.mk_one,
      Matrix.cons_val, id] <;> push_cast <;> ring
  grads i j := by
    refine deriv_of_bend fun p t => ?_
    fin_cases j <;> simp only [bend, quadrangle4, shift, Fin.zero_eta, Fin.mk_one,
      Fin.reduceFinMk, Fin.isValue, Fin.reduceEq, reduceIte, Matrix.cons_val, one_ne_zero,
      zero_ne_one] <;> ring

theorem quadrangle8New_cast (q : Point ℚ 2) (b : Fin 4) :
    quadrangle8New (K := ℝ) (embed q) b = ((quadrangle8New (K := ℚ) q b : ℚ) : ℝ) := by
  fin_cases b <;> simp only [quadrangle8New, embed, Rat.cast_id, Fin.zero_eta, Fin.mk_one,
    Fin.reduceFinMk, Matrix.cons_val] <;> push_cast <;> ring

theorem sound_quadrangle8 : Sound (quadrangle8 ℝ) id := by
  refine sound_quadrangle4.enrich ?_ ?_ ?_
  · exact zero_of_rat quadrangle8New_cast (by decide +kernel)
  · exact cardinal_of_rat quadrangle8New_cast (by decide +kernel)
  · intro b j
    refine deriv_of_bend fun p t => ?_
    fin_cases j <;> fin_cases b <;> simp only [bend, quadrangle8New, quadrangle8NewGrads, shift,
      Fin.zero_eta, Fin.mk_one, Fin.reduceFinMk, Fin.isValue, Fin.reduceEq, reduceIte,
      Matrix.cons_val, one_ne_zero, zero_ne_one] <;> ring

theorem quadrangle9New_cast (q : Point ℚ 2) (b : Fin 1) :
    quadrangle9New (K := ℝ) (embed q) b = ((quadrangle9New (K := ℚ) q b : ℚ) : ℝ) := by
  fin_cases b
  simp only [quadrangle9New, embed, Fin.zero_eta, Matrix.cons_val]
  push_cast
  ring

theorem sound_quadrangle9 : Sound (quadrangle9 ℝ) id := by
  refine sound_quadrangle8.enrich ?_ ?_ ?_
  · exact zero_of_rat quadrangle9New_cast (by decide +kernel)
  · exact cardinal_of_rat quadrangle9New_cast (by decide +kernel)
  · intro b j
    refine deriv_of_bend fun p t => ?_
    fin_cases j <;> fin_cases b <;> simp only [bend, quadrangle9New, quadrangle9NewGrads, shift,
      Fin.zero_eta, Fin.mk_one, Fin.reduceFinMk, Fin.isValue, Fin.reduceEq, reduceIte,
      Matrix.cons_val, one_ne_zero, zero_ne_one] <;> ring

/-! ### Tetrahedra -/

theorem sound_tetrahedron4 : Sound (tetrahedron4 ℝ) id where
  cardinal := by
    refine cardinal_of_rat (M := (tetrahedron4 ℚ).shapes) ?_ (by decide +kernel)
    intro q i
    fin_cases i <;> simp only [tetrahedron4, embed, Fin.zero_eta, Fin.mk_one, Fin.reduceFinMk,
      Matrix.cons_val] <;> push_cast <;> ring
  unity p := by
    simp only [tetrahedron4, Fin.sum_univ_four, Matrix.cons_val]
    ring
  linear j := by
    intro p
    fin_cases j <;> simp only [tetrahedron4, real, embed, Fin.sum_univ_four, Fin.zero_eta, Fin.mk_one,
      Fin.reduceFinMk, Matrix.cons_val, id] <;> push_cast <;> ring
  grads i j := by
    refine deriv_of_bend fun p t => ?_
    fin_cases j <;> fin_cases i <;> simp only [bend, tetrahedron4, shift, Fin.zero_eta, Fin.mk_one,
      Fin.reduceFinMk, Fin.isValue, Fin.reduceEq, reduceIte, Matrix.cons_val, one_ne_zero,
      zero_ne_one] <;> ring

theorem sum_ten {M : Type*} [AddCommMonoid M] (f : Fin 10 → M) :
    ∑ i, f i = f 0 + f 1 + f 2 + f 3 + f 4 + f 5 + f 6 + f 7 + f 8 + f 9 := by
  rw [Fin.sum_univ_castSucc, Fin.sum_univ_castSucc, Fin.sum_univ_eight]
  rfl

theorem sound_tetrahedron10 : Sound (tetrahedron10 ℝ) id where
  cardinal := by
    refine cardinal_of_rat (M := (tetrahedron10 ℚ).shapes) ?_ (by decide +kernel)
    intro q i
    fin_cases i <;> simp only [tetrahedron10, embed, Fin.zero_eta, Fin.mk_one, Fin.reduceFinMk,
      Matrix.cons_val] <;> push_cast <;> ring
  unity p := by
    simp only [tetrahedron10, sum_ten, Matrix.cons_val]
    ring
  linear j := by
    intro p
    fin_cases j <;> simp only [tetrahedron10, real, embed, sum_ten, Fin.zero_eta, Fin.mk_one,
      Fin.reduceFinMk, Matrix.cons_val, id] <;> push_cast <;> ring
  grads i j := by
    refine deriv_of_bend fun p t => ?_
    fin_cases j <;> fin_cases i <;> simp only [bend, tetrahedron10, shift, Fin.zero_eta, Fin.mk_one,
      Fin.reduceFinMk, Fin.isValue, Fin.reduceEq, reduceIte, Matrix.cons_val, one_ne_zero,
      zero_ne_one] <;> ring

end MiniCFD.Shape
