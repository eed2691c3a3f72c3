import Verif.Lemmas.Vincent

/-!
# Correction functions of Vincent (C35)

`std::legendre` enters only through its recurrence; every statement is about the values the class
returns.
-/

namespace MiniCFD.Vincent
open Polynomial

/-- The right function is one at the right end and zero at the left end. -/
theorem right_ends (k : Nat) (hk : 0 < k) (c : ℝ) :
    rightValue (mk' k c) 1 = 1 ∧ rightValue (mk' k c) (-1) = 0 := by
  obtain ⟨k, rfl⟩ := Nat.exists_eq_add_of_lt hk
  simp only [zero_add, rightValue, mk', Nat.add_sub_cancel, legendre_one, legendre_neg]
  constructor
  · norm_num; ring
  · simp only [pow_succ]; ring

/-- The left function is one at the left end and zero at the right end. -/
theorem left_ends (k : Nat) (hk : 0 < k) (c : ℝ) :
    leftValue (mk' k c) (-1) = 1 ∧ leftValue (mk' k c) 1 = 0 := by
  obtain ⟨h1, h2⟩ := right_ends k hk c
  exact ⟨by rw [leftValue, neg_neg, h1], by rw [leftValue, h2]⟩

/-- The two functions are mirror images. -/
theorem mirror (v : Vincent) (x : ℝ) :
    leftValue v x = rightValue v (-x) ∧ rightValue v x = leftValue v (-x) :=
  ⟨rfl, by rw [leftValue, neg_neg]⟩

theorem rightDerivative_eq (k : Nat) (hk : 0 < k) (c x : ℝ) :
    rightDerivative (mk' k c) x =
      (dleg k x + (1 - c) * dleg (k - 1) x + c * dleg (k + 1) x) * (1 / 2) := by
  obtain ⟨k, rfl⟩ := Nat.exists_eq_add_of_lt hk
  simp only [zero_add, rightDerivative, mk', loop_inv, Nat.add_sub_cancel]
  norm_num
  ring

/-- The derivative functions are the derivatives. -/
theorem right_derivative (k : Nat) (hk : 0 < k) (c x : ℝ) :
    HasDerivAt (rightValue (mk' k c)) (rightDerivative (mk' k c) x) x := by
  have h := (((hasDerivAt_legendre k x).add ((hasDerivAt_legendre (k - 1) x).const_mul (1 - c))).add
    ((hasDerivAt_legendre (k + 1) x).const_mul c)).mul_const (0.5 : ℝ)
  refine HasDerivAt.congr_deriv (f' := (dleg k x + (1 - c) * dleg (k - 1) x + c * dleg (k + 1) x)
    * 0.5) h ?_
  rw [rightDerivative_eq k hk]
  norm_num

theorem left_derivative (k : Nat) (hk : 0 < k) (c x : ℝ) :
    HasDerivAt (leftValue (mk' k c)) (leftDerivative (mk' k c) x) x := by
  have h := (right_derivative k hk c (-x)).comp x (hasDerivAt_neg x)
  refine HasDerivAt.congr_deriv h ?_
  rw [leftDerivative]
  ring

/-- Total variation of the correction: the derivative integrates to the jump of the end values. -/
theorem right_derivative_integral (k : Nat) (hk : 0 < k) (c : ℝ) :
    ∫ x in (-1 : ℝ)..1, rightDerivative (mk' k c) x = 1 := by
  have hc : Continuous (rightDerivative (mk' k c)) := by
    have : rightDerivative (mk' k c) = fun x =>
        (dleg k x + (1 - c) * dleg (k - 1) x + c * dleg (k + 1) x) * (1 / 2) :=
      funext fun x => rightDerivative_eq k hk c x
    rw [this]
    have hd : ∀ n, Continuous (dleg n) := fun n => (derivative (leg n)).continuous
    exact (((hd k).add (continuous_const.mul (hd _))).add (continuous_const.mul (hd _))).mul
      continuous_const
  rw [intervalIntegral.integral_eq_sub_of_hasDerivAt
    (fun x _ => right_derivative k hk c x) (hc.intervalIntegrable _ _)]
  rw [(right_ends k hk c).1, (right_ends k hk c).2]
  norm_num

/-- The right function as a polynomial. -/
noncomputable def rightPoly (k : Nat) (c : ℝ) : ℝ[X] :=
  C (1 / 2) * (leg k + C (1 - c) * leg (k - 1) + C c * leg (k + 1))

theorem rightPoly_eval (k : Nat) (c x : ℝ) : (rightPoly k c).eval x = rightValue (mk' k c) x := by
  simp [rightPoly, rightValue, mk', leg_eval]
  norm_num
  ring

/-- For every parameter the correction is orthogonal to the polynomials of degree below `k - 1`. -/
theorem right_orthogonal (k : Nat) (c : ℝ) (q : ℝ[X]) (hq : q.degree < (k - 1 : Nat)) :
    ∫ x in (-1 : ℝ)..1, rightValue (mk' k c) x * q.eval x = 0 := by
  have h : integral (rightPoly k c * q) = 0 := by
    have e : rightPoly k c * q = C (1 / 2) * (leg k * q + C (1 - c) * (leg (k - 1) * q) +
        C c * (leg (k + 1) * q)) := by rw [rightPoly]; ring
    rw [e, integral_C_mul, integral_add, integral_add, integral_C_mul, integral_C_mul,
      leg_orthogonal k q (lt_of_lt_of_le hq (by exact_mod_cast Nat.sub_le k 1)),
      leg_orthogonal (k - 1) q hq,
      leg_orthogonal (k + 1) q (lt_of_lt_of_le hq (by exact_mod_cast (by omega)))]
    ring
  unfold integral at h
  simpa only [eval_mul, rightPoly_eval] using h

/-- The parameter `DiscontinuousGalerkin`: the derivative of the correction is the lifting of the
right end value, so that flux reconstruction is the discontinuous Galerkin scheme. -/
theorem dg_lifting (k : Nat) (hk : 0 < k) (q : ℝ[X]) (hq : q.degree < (k + 1 : Nat)) :
    ∫ x in (-1 : ℝ)..1, rightDerivative (mk' k (discontinuousGalerkin k)) x * q.eval x = q.eval 1 := by
  have hd : ∀ x, (derivative (rightPoly k (discontinuousGalerkin k))).eval x =
      rightDerivative (mk' k (discontinuousGalerkin k)) x := by
    intro x
    have h1 := (rightPoly k (discontinuousGalerkin k)).hasDerivAt x
    have e : (fun x => (rightPoly k (discontinuousGalerkin k)).eval x) =
        rightValue (mk' k (discontinuousGalerkin k)) := funext fun x => rightPoly_eval _ _ x
    rw [e] at h1
    exact h1.unique (right_derivative k hk _ x)
  have hi := integral_derivative (rightPoly k (discontinuousGalerkin k) * q)
  rw [derivative_mul, integral_add, eval_mul, eval_mul, rightPoly_eval, rightPoly_eval,
    (right_ends k hk _).1, (right_ends k hk _).2] at hi
  have hq' : (derivative q).degree < (k : Nat) := by
    by_cases h0 : q = 0
    · subst h0; simp
    · have := degree_derivative_lt h0
      have h2 : q.degree ≤ (k : Nat) := by
        rw [degree_eq_natDegree h0] at hq ⊢
        exact_mod_cast Nat.lt_succ_iff.1 (by exact_mod_cast hq)
      exact lt_of_lt_of_le this h2
  have h0 : integral (rightPoly k (discontinuousGalerkin k) * derivative q) = 0 := by
    have e : rightPoly k (discontinuousGalerkin k) * derivative q =
        C (1 / 2) * (leg k * derivative q + leg (k + 1) * derivative q) := by
      simp only [rightPoly, discontinuousGalerkin, sub_self, C_0, zero_mul, add_zero, C_1, one_mul]
      ring
    rw [e, integral_C_mul, integral_add, leg_orthogonal k _ hq',
      leg_orthogonal (k + 1) _ (lt_trans hq' (by exact_mod_cast Nat.lt_succ_self k))]
    ring
  rw [h0, add_zero, zero_mul, sub_zero, one_mul] at hi
  unfold integral at hi
  simpa only [eval_mul, hd] using hi

/-- The same on the left: the lifting of minus the left end value. -/
theorem dg_lifting_left (k : Nat) (hk : 0 < k) (q : ℝ[X]) (hq : q.degree < (k + 1 : Nat)) :
    ∫ x in (-1 : ℝ)..1, leftDerivative (mk' k (discontinuousGalerkin k)) x * q.eval x =
      -q.eval (-1) := by
  have hq' : (q.comp (-X)).degree < (k + 1 : Nat) := by
    by_cases h0 : q.comp (-X) = 0
    · rw [h0]; simp
    · have hqz : q ≠ 0 := by rintro rfl; simp at h0
      rw [degree_eq_natDegree h0, natDegree_comp, natDegree_neg, natDegree_X, mul_one,
        ← degree_eq_natDegree hqz]
      exact hq
  have h := dg_lifting k hk (q.comp (-X)) hq'
  have h2 := intervalIntegral.integral_comp_neg (a := -1) (b := 1) (fun x =>
    rightDerivative (mk' k (discontinuousGalerkin k)) x * (q.comp (-X)).eval x)
  rw [neg_neg, h] at h2
  simp only [eval_comp, eval_neg, eval_X, neg_neg] at h2
  simp only [leftDerivative, neg_mul, intervalIntegral.integral_neg, h2]

/-- The parameter `HuynhLumpingLobatto`: the derivative of the correction vanishes at the far end,
so that the correction at one face does not reach the node on the opposite face. -/
theorem huynh_far_end (k : Nat) (hk : 0 < k) :
    rightDerivative (mk' k (huynhLumpingLobatto k)) (-1) = 0 ∧
      leftDerivative (mk' k (huynhLumpingLobatto k)) 1 = 0 := by
  have h : rightDerivative (mk' k (huynhLumpingLobatto k)) (-1) = 0 := by
    rw [rightDerivative_eq k hk]
    obtain ⟨k, rfl⟩ := Nat.exists_eq_add_of_lt hk
    simp only [zero_add, Nat.add_sub_cancel]
    have hd : (2 * ((k : ℝ) + 1) + 1) ≠ 0 := by positivity
    cases k with
    | zero =>
      simp [dleg_neg, dleg_one, huynhLumpingLobatto, dleg_zero]
      norm_num
    | succ k =>
      simp only [dleg_neg, dleg_one, huynhLumpingLobatto]
      push_cast at hd ⊢
      field_simp
      ring
  exact ⟨h, by rw [leftDerivative, h, neg_zero]⟩

/-! ### Examples -/

example : rightValue (mk' 3 (huynhLumpingLobatto 3)) 1 = 1 := (right_ends 3 (by norm_num) _).1

example : ∫ x in (-1 : ℝ)..1, rightDerivative (mk' 2 (discontinuousGalerkin 2)) x *
    (X ^ 2 + 1 : ℝ[X]).eval x = 2 := by
  rw [dg_lifting 2 (by norm_num) _ (by
    refine lt_of_le_of_lt (b := (2 : WithBot ℕ)) ?_ (by norm_num)
    compute_degree)]
  norm_num

/-- The value is not constant: the function really moves between the ends. -/
example : rightValue (mk' 1 1) 0 = -(1 / 4) := by
  simp [rightValue, mk', legendre]
  norm_num

end MiniCFD.Vincent
