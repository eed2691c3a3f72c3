import Verif.Lemmas.Shape

/-! # Pyramids and wedges -/

namespace MiniCFD.Shape

open MiniCFD.Spec.Shape

/-! ### Pyramids -/

theorem pyramidBaseShape_cast (c q : Point ℚ 3) :
    pyramidBaseShape (K := ℝ) (embed c) (embed q) = ((pyramidBaseShape (K := ℚ) c q : ℚ) : ℝ) := by
  simp only [pyramidBaseShape, embed]
  push_cast
  ring

theorem embed_rat {d : Nat} (q : Point ℚ d) : (embed q : Point ℚ d) = q := by
  funext j; simp [embed]

theorem deriv_pyramidBase (c : Point ℝ 3) (j : Fin 3) :
    Deriv (fun p => pyramidBaseShape c p) j (fun p => pyramidBaseGrad c p j) := by
  refine deriv_of_bend fun p t => ?_
  fin_cases j <;> simp only [bend, pyramidBaseShape, pyramidBaseGrad, shift, Fin.zero_eta, Fin.mk_one,
    Fin.reduceFinMk, Fin.isValue, Fin.reduceEq, reduceIte, Matrix.cons_val, one_ne_zero,
    zero_ne_one] <;> ring

theorem sound_pyramid5 : Sound (pyramid5 ℝ) collapse where
  cardinal := by
    refine cardinal_of_rat (M := (pyramid5 ℚ).shapes) ?_ (by decide +kernel)
    intro q i
    fin_cases i <;> simp only [pyramid5, Fin.zero_eta, Fin.mk_one, Fin.reduceFinMk,
      Matrix.cons_val, pyramidBaseShape_cast, embed_rat]
    simp only [embed]
    push_cast
    ring
  unity p := by
    simp only [pyramid5, pyramidBaseShape, pyramidBase, embed, Fin.sum_univ_five, Matrix.cons_val]
    push_cast
    ring
  linear j := by
    intro p
    fin_cases j <;> simp only [pyramid5, pyramidBaseShape, pyramidBase, real, embed, collapse,
      Fin.sum_univ_five, Fin.zero_eta, Fin.mk_one, Fin.reduceFinMk, Fin.isValue, Fin.reduceEq,
      reduceIte, Matrix.cons_val] <;> push_cast <;> ring
  grads i j := by
    fin_cases i
    · exact deriv_pyramidBase _ j
    · exact deriv_pyramidBase _ j
    · exact deriv_pyramidBase _ j
    · exact deriv_pyramidBase _ j
    · refine deriv_of_bend fun p t => ?_
      fin_cases j <;> simp only [bend, pyramid5, shift, Fin.zero_eta, Fin.mk_one,
        Fin.reduceFinMk, Fin.isValue, Fin.reduceEq, reduceIte, Matrix.cons_val, one_ne_zero,
        zero_ne_one] <;> ring

theorem deriv_pyramidEdgeX (c : Point ℝ 3) (j : Fin 3) :
    Deriv (fun p => pyramidEdgeX c p) j (fun p => pyramidEdgeXGrad c p j) := by
  refine deriv_of_bend fun p t => ?_
  fin_cases j <;> simp only [bend, pyramidEdgeX, pyramidEdgeXGrad, shift, Fin.zero_eta, Fin.mk_one,
    Fin.reduceFinMk, Fin.isValue, Fin.reduceEq, reduceIte, Matrix.cons_val, one_ne_zero,
    zero_ne_one] <;> ring

theorem deriv_pyramidEdgeY (c : Point ℝ 3) (j : Fin 3) :
    Deriv (fun p => pyramidEdgeY c p) j (fun p => pyramidEdgeYGrad c p j) := by
  refine deriv_of_bend fun p t => ?_
  fin_cases j <;> simp only [bend, pyramidEdgeY, pyramidEdgeYGrad, shift, Fin.zero_eta, Fin.mk_one,
    Fin.reduceFinMk, Fin.isValue, Fin.reduceEq, reduceIte, Matrix.cons_val, one_ne_zero,
    zero_ne_one] <;> ring

theorem deriv_pyramidEdgeZ (c : Point ℝ 3) (j : Fin 3) :
    Deriv (fun p => pyramidEdgeZ c p) j (fun p => pyramidEdgeZGrad c p j) := by
  refine deriv_of_bend fun p t => ?_
  fin_cases j <;> simp only [bend, pyramidEdgeZ, pyramidEdgeZGrad, shift, Fin.zero_eta, Fin.mk_one,
    Fin.reduceFinMk, Fin.isValue, Fin.reduceEq, reduceIte, Matrix.cons_val, one_ne_zero,
    zero_ne_one] <;> ring

theorem pyramid13New_cast (q : Point ℚ 3) (b : Fin 8) :
    pyramid13New (K := ℝ) (embed q) b = ((pyramid13New (K := ℚ) q b : ℚ) : ℝ) := by
  fin_cases b <;> simp only [pyramid13New, pyramidEdgeX, pyramidEdgeY, pyramidEdgeZ, embed,
    Rat.cast_id, Fin.zero_eta, Fin.mk_one, Fin.reduceFinMk, Matrix.cons_val] <;> push_cast <;> ring

theorem sound_pyramid13 : Sound (pyramid13 ℝ) collapse := by
  refine sound_pyramid5.enrich ?_ ?_ ?_
  · exact zero_of_rat pyramid13New_cast (by decide +kernel)
  · exact cardinal_of_rat pyramid13New_cast (by decide +kernel)
  · intro b j
    fin_cases b
    · exact deriv_pyramidEdgeX _ j
    · exact deriv_pyramidEdgeY _ j
    · exact deriv_pyramidEdgeX _ j
    · exact deriv_pyramidEdgeY _ j
    · exact deriv_pyramidEdgeZ _ j
    · exact deriv_pyramidEdgeZ _ j
    · exact deriv_pyramidEdgeZ _ j
    · exact deriv_pyramidEdgeZ _ j

theorem pyramid14New_cast (q : Point ℚ 3) (b : Fin 1) :
    pyramid14New (K := ℝ) (embed q) b = ((pyramid14New (K := ℚ) q b : ℚ) : ℝ) := by
  fin_cases b
  simp only [pyramid14New, embed, Fin.zero_eta, Matrix.cons_val]
  push_cast
  ring

theorem sound_pyramid14 : Sound (pyramid14 ℝ) collapse := by
  refine sound_pyramid13.enrich ?_ ?_ ?_
  · exact zero_of_rat pyramid14New_cast (by decide +kernel)
  · exact cardinal_of_rat pyramid14New_cast (by decide +kernel)
  · intro b j
    refine deriv_of_bend fun p t => ?_
    fin_cases j <;> fin_cases b <;> simp only [bend, pyramid14New, pyramid14NewGrads, shift,
      Fin.zero_eta, Fin.mk_one, Fin.reduceFinMk, Fin.isValue, Fin.reduceEq, reduceIte,
      Matrix.cons_val, one_ne_zero, zero_ne_one] <;> ring

/-! ### Wedges -/

theorem sound_wedge6 : Sound (wedge6 ℝ) id where
  cardinal := by
    refine cardinal_of_rat (M := (wedge6 ℚ).shapes) ?_ (by decide +kernel)
    intro q i
    fin_cases i <;> simp only [wedge6, embed, Fin.zero_eta, Fin.mk_one, Fin.reduceFinMk,
      Matrix.cons_val] <;> push_cast <;> ring
  unity p := by
    simp only [wedge6, Fin.sum_univ_six, Matrix.cons_val]
    ring
  linear j := by
    intro p
    fin_cases j <;> simp only [wedge6, real, embed, Fin.sum_univ_six, Fin.zero_eta, Fin.mk_one,
      Fin.reduceFinMk, Matrix.cons_val, id] <;> push_cast <;> ring
  grads i j := by
    refine deriv_of_bend fun p t => ?_
    fin_cases j <;> fin_cases i <;> simp only [bend, wedge6, shift, Fin.zero_eta, Fin.mk_one,
      Fin.reduceFinMk, Fin.isValue, Fin.reduceEq, reduceIte, Matrix.cons_val, one_ne_zero,
      zero_ne_one] <;> ring

theorem wedge15New_cast (q : Point ℚ 3) (b : Fin 9) :
    wedge15New (K := ℝ) (embed q) b = ((wedge15New (K := ℚ) q b : ℚ) : ℝ) := by
  fin_cases b <;> simp only [wedge15New, embed, Fin.zero_eta, Fin.mk_one, Fin.reduceFinMk,
    Matrix.cons_val] <;> push_cast <;> ring

theorem sound_wedge15 : Sound (wedge15 ℝ) id := by
  refine sound_wedge6.enrich ?_ ?_ ?_
  · exact zero_of_rat wedge15New_cast (by decide +kernel)
  · exact cardinal_of_rat wedge15New_cast (by decide +kernel)
  · intro b j
    refine deriv_of_bend fun p t => ?_
    fin_cases j <;> fin_cases b <;> simp only [bend, wedge15New, wedge15NewGrads, shift,
      Fin.zero_eta, Fin.mk_one, Fin.reduceFinMk, Fin.isValue, Fin.reduceEq, reduceIte,
      Matrix.cons_val, one_ne_zero, zero_ne_one] <;> ring

theorem sum_eighteen {M : Type*} [AddCommMonoid M] (f : Fin 18 → M) :
    ∑ i, f i = f 0 + f 1 + f 2 + f 3 + f 4 + f 5 + f 6 + f 7 + f 8 + f 9 + f 10 + f 11 + f 12 + f 13
      + f 14 + f 15 + f 16 + f 17 := by
  iterate 10 rw [Fin.sum_univ_castSucc]
  rw [Fin.sum_univ_eight]
  rfl

theorem sound_wedge18 : Sound (wedge18 ℝ) id where
  cardinal := by
    refine cardinal_of_rat (M := (wedge18 ℚ).shapes) ?_ (by decide +kernel)
    intro q i
    fin_cases i <;> simp only [wedge18, embed, Fin.zero_eta, Fin.mk_one, Fin.reduceFinMk,
      Matrix.cons_val] <;> push_cast <;> ring
  unity p := by
    simp only [wedge18, sum_eighteen, Matrix.cons_val]
    ring
  linear j := by
    intro p
    fin_cases j <;> simp only [wedge18, real, embed, sum_eighteen, Fin.zero_eta, Fin.mk_one,
      Fin.reduceFinMk, Matrix.cons_val, id] <;> push_cast <;> ring
  grads i j := by
    refine deriv_of_bend fun p t => ?_
    fin_cases j <;> fin_cases i <;> simp only [bend, wedge18, shift, Fin.zero_eta, Fin.mk_one,
      Fin.reduceFinMk, Fin.isValue, Fin.reduceEq, reduceIte, Matrix.cons_val, one_ne_zero,
      zero_ne_one] <;> ring

end MiniCFD.Shape
