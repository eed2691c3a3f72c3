import Verif.Lemmas.PyFRDG
import Mathlib.Analysis.Calculus.IteratedDeriv.Defs

/-! Helper lemmas about the correction functions of Vincent: the inner product in which they make flux reconstruction a Galerkin
scheme. -/

namespace MiniCFD.PyFR
open MiniCFD.PyQuad MiniCFD.PyExpansion MiniCFD.PyDG Polynomial
open MiniCFD.Vincent (leg integral legendre)
open MiniCFD.Spec.PyPoly (IsPair Orthogonal)
open MiniCFD.Spec.PyFR (PolyMap Interpolates)

variable {p : ℕ} {c : Coordinate} {V : Type*} [NormedAddCommGroup V] [NormedSpace ℝ V]

theorem leg_norm_pos (n : ℕ) : 0 < integral (leg n * leg n) := by
  have h0 : leg n ≠ 0 := fun h => by have := PyPoly.leg_coeff_pos n; rw [h] at this; simp at this
  have : integral (leg n * leg n) = ∫ x in (-1 : ℝ)..1, (leg n).eval x ^ 2 := by
    rw [integral]; congr 1; funext x; rw [eval_mul, sq]
  rw [this]
  exact integral_sq_pos (by norm_num) h0

/-- The weight of the highest coefficients in the inner product on the reference element. -/
noncomputable def weight (p : ℕ) (mu : ℝ) : ℝ :=
  (1 - mu) / mu * (p * integral (leg (p - 1) * leg (p - 1)) / ((leg (p - 1)).coeff (p - 1) * ((p + 1) * (leg (p + 1)).coeff (p + 1))))

theorem weight_nonneg (p : ℕ) {mu : ℝ} (h0 : 0 < mu) (h1 : mu ≤ 1) : 0 ≤ weight p mu := by
  have := leg_norm_pos (p - 1)
  have := PyPoly.leg_coeff_pos (p - 1)
  have := PyPoly.leg_coeff_pos (p + 1)
  have : 0 ≤ 1 - mu := by linarith
  unfold weight
  positivity

theorem weight_pos {p : ℕ} (hp : 1 ≤ p) {mu : ℝ} (h0 : 0 < mu) (h1 : mu < 1) : 0 < weight p mu := by
  have := leg_norm_pos (p - 1)
  have := PyPoly.leg_coeff_pos (p - 1)
  have := PyPoly.leg_coeff_pos (p + 1)
  have : 0 < 1 - mu := by linarith
  have : (0 : ℝ) < p := by exact_mod_cast hp
  unfold weight
  positivity

/-- The right function as a polynomial. -/
noncomputable def rightPoly (p : ℕ) (mu : ℝ) : ℝ[X] :=
  C (1 / 2) * (leg p + C (1 - mu) * leg (p - 1) + C mu * leg (p + 1))

theorem rightPoly_eval (mu : ℝ) (hp : 1 ≤ p ∨ mu = 1) (x : ℝ) :
    (rightPoly p mu).eval x = (PyPoly.Vincent.mk p mu (1 - mu)).right x := by
  simp only [rightPoly, eval_mul, eval_add, eval_C, Vincent.leg_eval]
  rcases p with _ | k
  · rcases hp with hp | rfl
    · omega
    · rw [PyPoly.right_zero]
      simp [legendre]
      ring
  · rw [PyPoly.right_succ]
    simp only [Nat.add_sub_cancel]
    ring

theorem rightPoly_degree (p : ℕ) (mu : ℝ) : (rightPoly p mu).natDegree ≤ p + 1 := by
  refine (natDegree_C_mul_le _ _).trans ((natDegree_add_le _ _).trans (max_le ((natDegree_add_le _ _).trans (max_le ?_ ?_)) ?_))
  · exact (FR.leg_natDegree _).trans (by omega)
  · exact (natDegree_C_mul_le _ _).trans ((FR.leg_natDegree _).trans (by omega))
  · exact (natDegree_C_mul_le _ _).trans (FR.leg_natDegree _)

theorem rightPoly_top (p : ℕ) (mu : ℝ) : (derivative (rightPoly p mu)).coeff p = mu / 2 * ((p + 1) * (leg (p + 1)).coeff (p + 1)) := by
  have h0 : (leg p).coeff (p + 1) = 0 := coeff_eq_zero_of_natDegree_lt (lt_of_le_of_lt (FR.leg_natDegree p) (by omega))
  have h1 : (leg (p - 1)).coeff (p + 1) = 0 :=
    coeff_eq_zero_of_natDegree_lt (lt_of_le_of_lt (FR.leg_natDegree (p - 1)) (by omega))
  rw [coeff_derivative, rightPoly, coeff_C_mul, coeff_add, coeff_add, coeff_C_mul, coeff_C_mul, h0, h1]
  ring

/-- The right function tested with derivatives. -/
theorem right_moment (mu : ℝ) (hmu : mu ≠ 0) (hp : 1 ≤ p ∨ mu = 1) (ψ : ℝ[X]) (hψ : ψ.natDegree ≤ p) :
    integral (rightPoly p mu * derivative ψ) = weight p mu * (ψ.coeff p * (derivative (rightPoly p mu)).coeff p) := by
  have hd := derivative_degree hψ
  have o1 : integral (leg p * derivative ψ) = 0 := Vincent.leg_orthogonal _ _ hd
  have o2 : integral (leg (p + 1) * derivative ψ) = 0 :=
    Vincent.leg_orthogonal _ _ (lt_trans hd (by exact_mod_cast Nat.lt_succ_self p))
  have e : rightPoly p mu * derivative ψ = C (1 / 2) * (leg p * derivative ψ + C (1 - mu) * (leg (p - 1) * derivative ψ) +
      C mu * (leg (p + 1) * derivative ψ)) := by rw [rightPoly]; ring
  rw [e, Vincent.integral_C_mul, Vincent.integral_add, Vincent.integral_add, Vincent.integral_C_mul, Vincent.integral_C_mul, o1, o2,
    rightPoly_top, weight]
  rcases Nat.eq_zero_or_pos p with rfl | hp1
  · have : mu = 1 := hp.resolve_left (by omega)
    subst this
    simp
  have hA := PyPoly.leg_coeff_pos (p - 1)
  have hB := PyPoly.leg_coeff_pos (p + 1)
  set t := p * ψ.coeff p / (leg (p - 1)).coeff (p - 1) with ht
  have hlow : (derivative ψ - C t * leg (p - 1)).degree < (p - 1 : ℕ) := by
    rw [degree_lt_iff_coeff_zero]
    intro m hm
    rw [coeff_sub, coeff_C_mul, coeff_derivative]
    rcases Nat.eq_or_lt_of_le hm with rfl | hlt
    · rw [ht, div_mul_cancel₀ _ hA.ne', show p - 1 + 1 = p by omega]
      have : ((p - 1 : ℕ) : ℝ) + 1 = p := by
        have : ((p - 1 + 1 : ℕ) : ℝ) = p := by congr 1; omega
        push_cast at this
        exact this
      rw [this]
      ring
    · rw [coeff_eq_zero_of_natDegree_lt (lt_of_le_of_lt hψ (by omega)),
        coeff_eq_zero_of_natDegree_lt (lt_of_le_of_lt (FR.leg_natDegree (p - 1)) hlt)]
      ring
  have e2 : leg (p - 1) * derivative ψ = leg (p - 1) * (derivative ψ - C t * leg (p - 1)) + C t * (leg (p - 1) * leg (p - 1)) := by
    ring
  rw [e2, Vincent.integral_add, Vincent.leg_orthogonal _ _ hlow, Vincent.integral_C_mul, ht]
  have hp0 : ((p : ℝ) + 1) ≠ 0 := by positivity
  field_simp
  ring

theorem comp_neg_degree {q : ℝ[X]} {d : ℕ} (h : q.natDegree ≤ d) : (q.comp (-X)).natDegree ≤ d :=
  natDegree_comp_le.trans (by simp [h])

/-- The highest coefficient after a linear substitution. -/
theorem coeff_comp_linear (ψ : ℝ[X]) (hψ : ψ.natDegree ≤ p) {a : ℝ} (ha : a ≠ 0) (b : ℝ) :
    (ψ.comp (C a * X + C b)).coeff p = ψ.coeff p * a ^ p := by
  have hd : (C a * X + C b).natDegree = 1 := natDegree_linear ha
  rcases Nat.eq_or_lt_of_le hψ with h | h
  · have := coeff_comp_degree_mul_degree (p := ψ) (q := C a * X + C b) (by rw [hd]; omega)
    rw [hd, mul_one, h] at this
    rw [this, leadingCoeff, h, leadingCoeff, hd]
    simp
  · rw [coeff_eq_zero_of_natDegree_lt h, coeff_eq_zero_of_natDegree_lt, zero_mul]
    refine lt_of_le_of_lt natDegree_comp_le ?_
    rw [hd]; omega

theorem coeff_comp_neg (ψ : ℝ[X]) (hψ : ψ.natDegree ≤ p) : (ψ.comp (-X)).coeff p = ψ.coeff p * (-1) ^ p := by
  have := coeff_comp_linear ψ hψ (a := -1) (by norm_num) 0
  simpa using this

/-- The left function tested with derivatives. -/
theorem left_moment (mu : ℝ) (hmu : mu ≠ 0) (hp : 1 ≤ p ∨ mu = 1) (ψ : ℝ[X]) (hψ : ψ.natDegree ≤ p) :
    integral ((rightPoly p mu).comp (-X) * derivative ψ) =
      weight p mu * (ψ.coeff p * (derivative ((rightPoly p mu).comp (-X))).coeff p) := by
  have h1 := right_moment mu hmu hp (ψ.comp (-X)) (comp_neg_degree hψ)
  have hq : (derivative (rightPoly p mu)).natDegree ≤ p := (natDegree_derivative_le _).trans (by
    have := rightPoly_degree p mu; omega)
  have e : integral ((rightPoly p mu).comp (-X) * derivative ψ) =
      -integral (rightPoly p mu * derivative (ψ.comp (-X))) := by
    have := intervalIntegral.integral_comp_neg (a := -1) (b := 1) fun x =>
      (rightPoly p mu).eval x * ((derivative ψ).comp (-X)).eval x
    simp only [eval_comp, eval_neg, eval_X, neg_neg] at this
    rw [integral, integral, ← intervalIntegral.integral_neg]
    simp only [eval_mul, eval_comp, eval_neg, eval_X, derivative_comp, derivative_neg, derivative_X, eval_one]
    rw [this]
    congr 1
    funext x
    ring
  rw [e, h1, coeff_comp_neg ψ hψ, derivative_comp, derivative_neg, derivative_X]
  rw [show -(1 : ℝ[X]) * (derivative (rightPoly p mu)).comp (-X) = -((derivative (rightPoly p mu)).comp (-X)) by ring, coeff_neg,
    coeff_comp_neg _ hq]
  ring

/-- The weight of the highest coefficients on an element. -/
noncomputable def elementWeight (p : ℕ) (mu : ℝ) (c : Coordinate) : ℝ := weight p mu * ((c.xRight - c.xLeft) / 2) ^ (2 * p + 1)

/-- From the reference element to an element. -/
theorem moment_global (hc : c.xLeft < c.xRight) {q T : ℝ[X]} {w : ℝ} (hq : q.natDegree ≤ p + 1)
    (h : ∀ ψ : ℝ[X], ψ.natDegree ≤ p → integral (q * derivative ψ) = w * (ψ.coeff p * (derivative q).coeff p))
    (hT : ∀ x, T.eval x = q.eval (c.globalToLocal x)) (φ : ℝ[X]) (hφ : φ.natDegree ≤ p) :
    ∫ x in c.xLeft..c.xRight, T.eval x * (derivative φ).eval x =
      w * ((c.xRight - c.xLeft) / 2) ^ (2 * p + 1) * (φ.coeff p * (derivative T).coeff p) := by
  set J := (c.xRight - c.xLeft) / 2 with hJdef
  have hJ : 0 < J := by rw [hJdef]; linarith
  let G : ℝ[X] := C J * X + C ((c.xLeft + c.xRight) / 2)
  have hG : ∀ x, G.eval (c.globalToLocal x) = x := by
    intro x
    rw [c.eq_linear.2.2.2.2.2 x, ← hJdef]
    simp only [G, eval_add, eval_mul, eval_C, eval_X]
    field_simp
    ring
  have hdG : derivative G = C J := by simp [G]
  have e : (fun x => T.eval x * (derivative φ).eval x) =
      fun x => (fun ξ => (q * derivative (φ.comp G)).eval ξ * J⁻¹) (c.globalToLocal x) := by
    funext x
    simp only [eval_mul, derivative_comp, eval_comp, hG, hT, hdG, eval_C]
    field_simp
  have hqT : T = q.comp (C J⁻¹ * X + C (-((c.xLeft + c.xRight) / 2) / J)) := by
    refine Polynomial.funext fun x => ?_
    rw [hT, eval_comp, c.eq_linear.2.2.2.2.2 x, ← hJdef]
    congr 1
    simp only [eval_add, eval_mul, eval_C, eval_X]
    field_simp
    ring
  have hdT : (derivative T).coeff p = (derivative q).coeff p * (J⁻¹) ^ (p + 1) := by
    rw [hqT, derivative_comp]
    have : derivative (C J⁻¹ * X + C (-((c.xLeft + c.xRight) / 2) / J)) = C J⁻¹ := by simp
    rw [this, coeff_C_mul, coeff_comp_linear _ ((natDegree_derivative_le _).trans (by omega)) (inv_ne_zero hJ.ne')]
    ring
  have hcomp : (φ.comp G).natDegree ≤ p :=
    natDegree_comp_le.trans ((Nat.mul_le_mul hφ natDegree_linear_le).trans (by simp))
  rw [e, integral_local hc fun ξ => (q * derivative (φ.comp G)).eval ξ * J⁻¹, intervalIntegral.integral_mul_const]
  have := h _ hcomp
  rw [integral] at this
  rw [this, coeff_comp_linear φ hφ hJ.ne', hdT, ← hJdef]
  have hpow : J ^ (2 * p + 1) * J⁻¹ ^ (p + 1) = J ^ p := by
    rw [show 2 * p + 1 = p + (p + 1) by ring, pow_add, mul_assoc, ← mul_pow, mul_inv_cancel₀ hJ.ne', one_pow, mul_one]
  have hJJ : J * J⁻¹ = 1 := mul_inv_cancel₀ hJ.ne'
  linear_combination (w * φ.coeff p * (derivative q).coeff p * J ^ p) * hJJ - w * φ.coeff p * (derivative q).coeff p * hpow

/-- The `n`-th derivative of a combination of polynomials. -/
theorem iteratedDeriv_comb {ι : Type*} [Fintype ι] (Q : ι → ℝ[X]) (w : ι → V) (n : ℕ) :
    iteratedDeriv n (fun x => ∑ k, (Q k).eval x • w k) = fun x => ∑ k, (derivative^[n] (Q k)).eval x • w k := by
  induction n with
  | zero => rw [iteratedDeriv_zero]; rfl
  | succ n ih =>
    rw [iteratedDeriv_succ, ih]
    funext x
    have : HasDerivAt (fun x => ∑ k, (derivative^[n] (Q k)).eval x • w k)
        (∑ k, (derivative (derivative^[n] (Q k))).eval x • w k) x :=
      HasDerivAt.fun_sum fun k _ => ((derivative^[n] (Q k)).hasDerivAt x).smul_const _
    rw [this.deriv]
    simp only [Function.iterate_succ_apply']

theorem iterate_top (Q : ℝ[X]) (hQ : Q.natDegree ≤ p) (x : ℝ) : (derivative^[p] Q).eval x = p.factorial * Q.coeff p := by
  have h0 : (derivative^[p] Q).natDegree = 0 := by
    have := natDegree_iterate_derivative Q p
    omega
  rw [eq_C_of_natDegree_eq_zero h0, eval_C, coeff_iterate_derivative, zero_add, Nat.descFactorial_self, nsmul_eq_mul]

end MiniCFD.PyFR
