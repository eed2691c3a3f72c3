import Verif.Props.PyWaveStability
import Verif.Props.PyFRStable

/-! # C126: the waves of flux reconstruction with the correction functions of Vincent do not grow -/

namespace MiniCFD.PyWave
open MiniCFD.PyQuad MiniCFD.PyExpansion MiniCFD.PyDG Polynomial
open MiniCFD.Spec.PyWave
open MiniCFD.PyFR (penalty)

variable {p n : ℕ} {maker : Maker p} {h a : ℝ}

/-- The energy of a column on an element that belongs to a ratio. -/
noncomputable def sobolevEnergy (mu : ℝ) (c : Coordinate) (s : Setup p) (v : Fin (p + 1) → ℂ) : ℝ :=
  (∫ x in c.xLeft..c.xRight, Complex.normSq (s.value (setCoeff s v) x)) +
    penalty p mu c * Complex.normSq (iteratedDeriv p (s.value (setCoeff s v)) 0)

/-- The derivatives of a pair of polynomials. -/
theorem iteratedDeriv_pair (P Q : ℝ[X]) (k : ℕ) (x : ℝ) :
    iteratedDeriv k (fun x => ((P.eval x : ℝ) : ℂ) + Complex.I * ((Q.eval x : ℝ) : ℂ)) x =
      ((iteratedDeriv k (fun x => P.eval x) x : ℝ) : ℂ) + Complex.I * ((iteratedDeriv k (fun x => Q.eval x) x : ℝ) : ℂ) := by
  have e : (fun x => ((P.eval x : ℝ) : ℂ) + Complex.I * ((Q.eval x : ℝ) : ℂ)) =
      fun x => ∑ k : Fin 2, ((![P, Q] k).eval x) • (![1, Complex.I] k : ℂ) := by
    funext x
    simp [Fin.sum_univ_two, mul_comm]
  have e1 : ∀ P : ℝ[X], (fun x => P.eval x) = fun x => ∑ k : Fin 1, ((fun _ : Fin 1 => P) k).eval x • (fun _ : Fin 1 => (1 : ℝ)) k := by
    intro P
    funext x
    simp
  rw [e, PyFR.iteratedDeriv_comb, e1 P, PyFR.iteratedDeriv_comb, e1 Q, PyFR.iteratedDeriv_comb]
  simp [Fin.sum_univ_two, mul_comm]

theorem sobolev_pos {c : Coordinate} (hc : c.xLeft < c.xRight) {s : Setup p} (hb : Built c s) {mu : ℝ} (h0 : 0 < mu) (h1 : mu ≤ 1)
    {v : Fin (p + 1) → ℂ} (hv : v ≠ 0) : 0 < sobolevEnergy mu c s v := by
  obtain ⟨P, Q, hP, hQ, hU⟩ := complex_poly hc hb v
  have hval : ∀ x, s.value (setCoeff s v) x = ((P.eval x : ℝ) : ℂ) + Complex.I * ((Q.eval x : ℝ) : ℂ) := hU
  have hn : ∀ x, Complex.normSq (s.value (setCoeff s v) x) = (P ^ 2 + Q ^ 2).eval x := by
    intro x
    rw [hval, Complex.normSq_apply]
    simp
    ring
  have hpos : 0 < ∫ x in c.xLeft..c.xRight, Complex.normSq (s.value (setCoeff s v) x) := by
    simp only [hn]
    by_cases hP0 : P = 0
    · by_cases hQ0 : Q = 0
      · exfalso
        refine hv (residual_unique hc hb v fun φ _ => ?_)
        rw [Integrator.integrate_eq]
        refine Finset.sum_eq_zero fun q _ => ?_
        rw [hU, hP0, hQ0]
        simp
      · simp only [hP0, eval_add, eval_pow, eval_zero, ne_eq, OfNat.ofNat_ne_zero, not_false_eq_true, zero_pow, zero_add]
        exact integral_sq_pos hc hQ0
    · simp only [eval_add, eval_pow]
      rw [intervalIntegral.integral_add (Continuous.intervalIntegrable (by fun_prop) _ _) (Continuous.intervalIntegrable (by fun_prop) _ _)]
      have := integral_sq_pos hc hP0
      have : 0 ≤ ∫ x in c.xLeft..c.xRight, Q.eval x ^ 2 := intervalIntegral.integral_nonneg hc.le fun x _ => sq_nonneg _
      linarith
  have := mul_nonneg (PyFR.penalty_sign hc p h0 h1).1 (Complex.normSq_nonneg (iteratedDeriv p (s.value (setCoeff s v)) 0))
  unfold sobolevEnergy
  linarith

/-- The rate of the energy of a wave is minus half the speed times the square of its jump at the faces, whatever the ratio is. -/
theorem vincent_energy (ex : maker.Exact) (nodal : maker.Nodal) (hh : 0 < h) (ha : 0 ≤ a) {co : Fin (n + 2) → Coordinate}
    {setups : Fin (n + 2) → Setup p} (hq : Equal maker h co setups) {mu : ℕ → ℝ} {g : PyPoly.Vincent}
    (hg : PyPoly.vincent (p + 1) mu = some g) (hmu : mu p ≠ 0) (hp : 1 ≤ p ∨ mu 0 = 1) {kappa : ℝ}
    {m : Matrix (Fin (p + 1)) (Fin (p + 1)) ℂ}
    (hm : spatialMatrix (.fr (.vincent g)) a setups kappa = some m) (v : Fin (p + 1) → ℂ) :
    ((∫ x in (co 1).xLeft..(co 1).xRight, (starRingEnd ℂ) ((setups 1).value (setCoeff (setups 1) v) x) *
          (setups 1).value (setCoeff (setups 1) (m.mulVec v)) x) +
        penalty p (mu p) (co 1) * ((starRingEnd ℂ) (iteratedDeriv p ((setups 1).value (setCoeff (setups 1) v)) 0) *
          iteratedDeriv p ((setups 1).value (setCoeff (setups 1) (m.mulVec v))) 0)).re =
      -(a / 2) * Complex.normSq ((setups 1).value (setCoeff (setups 1) v) (co 1).xLeft -
        Complex.exp (-(Complex.I * kappa)) * (setups 1).value (setCoeff (setups 1) v) (co 1).xRight) := by
  have hc : ∀ i, (co i).xLeft < (co i).xRight := fun i => by have := hq.length i; linarith
  have hb : ∀ i, Built (co i) (setups i) := fun i => built ex (hq.made i)
  have h10 : (1 : Fin (n + 2)) ≠ 0 := by simp
  set z : ℂ := Complex.exp (-(Complex.I * kappa)) with hz
  set v' : Fin (p + 1) → ℂ := (phase kappa ((1 : Fin (n + 2)) : ℕ))⁻¹ • v with hv'
  set u : Fin (n + 2) → Fin (p + 1) → ℂ := fun j k => v' k * phase kappa j with hu
  have hne := phase_ne kappa ((1 : Fin (n + 2)) : ℕ)
  have hu1 : u 1 = v := by
    funext k
    simp only [hu, hv', Pi.smul_apply, smul_eq_mul]
    field_simp
  have hu0 : u (1 - 1) = fun k => z * v k := by
    funext k
    simp only [hu, hv', Pi.smul_apply, smul_eq_mul, phase_pred kappa h10, ← hz]
    field_simp
  have hdeg : (PyFR.Correction.vincent g).degree = p + 1 := by
    obtain ⟨_, _, rfl⟩ := PyPoly.vincent_eq hg
    rfl
  have hres : PyFR.residual (advection a) (some (.vincent g)) (setColumn setups u) 1 = some (m.mulVec v) := by
    have := wave_residual (scheme := .fr (.vincent g)) ex ⟨nodal, hdeg⟩ hh ha hq hm v' 1 (.inl h10)
    have e : PyFR.residual (advection a) (some (.vincent g)) (setColumn setups u) 1 =
        residual (.fr (.vincent g)) (advection a) (setColumn setups u) 1 := by
      unfold residual
      dsimp only
      rw [PyFR.addCorrection, if_pos hdeg]
    rw [e, this]
    congr 1
    funext k
    rw [hv', Matrix.mulVec_smul, Pi.smul_apply, smul_eq_mul]
    field_simp
  have hF := PyFR.linear_flux (hc 1) (advection a) ((setColumn setups u).cells 1) (hb 1) (.coeff (u 1) rfl) (a • LinearMap.id)
    (fun u => rfl) rfl rfl
  have hw := PyFR.weak_form_vincent (hc 1) (advection a) ((setColumn setups u).cells 1) (hb 1) (PyWave.nodal nodal (hq.made 1))
    (.coeff (u 1) rfl) hg hmu hp hF (faceData (advection a) (setColumn setups u) 1) hres
  rw [faces ha] at hw
  dsimp only at hw
  obtain ⟨P, Q, hP, hQ, hU⟩ := complex_poly (hc 1) (hb 1) v
  obtain ⟨RP, RQ, hRP, hRQ, hR⟩ := complex_poly (hc 1) (hb 1) (m.mulVec v)
  set s := setups 1 with hs
  have hset : ((setColumn setups u).cells 1).setup = s := rfl
  rw [hset] at hw
  have hUf : s.value (setCoeff s v) = fun x => ((P.eval x : ℝ) : ℂ) + Complex.I * ((Q.eval x : ℝ) : ℂ) := funext hU
  have hRf : s.value (setCoeff s (m.mulVec v)) = fun x => ((RP.eval x : ℝ) : ℂ) + Complex.I * ((RQ.eval x : ℝ) : ℂ) := funext hR
  have hRf' : field s (m.mulVec v) = fun x => ((RP.eval x : ℝ) : ℂ) + Complex.I * ((RQ.eval x : ℝ) : ℂ) := hRf
  have hend : ∑ j, endRow s false j • v j = ((P.eval (co 1).xRight : ℝ) : ℂ) + Complex.I * ((Q.eval (co 1).xRight : ℝ) : ℂ) := by
    rw [← boundary_row, ((value_derivatives (hc 1) (hb 1) (Reached.coeff (st := setCoeff s v) v rfl) 0).2 0).2.2.2.1,
      iteratedDeriv_zero, hUf]
  have hprev : ∑ j, endRow (setups (1 - 1)) false j • u (1 - 1) j =
      z * (((P.eval (co 1).xRight : ℝ) : ℂ) + Complex.I * ((Q.eval (co 1).xRight : ℝ) : ℂ)) := by
    have tw : Twin ((co (1 - 1)).xLeft - (co 1).xLeft) s (setups (1 - 1)) :=
      make_twin (by ring) (by have := hq.length 1; have := hq.length (1 - 1); linarith) (hq.made 1) (hq.made (1 - 1))
    rw [tw.endRow_eq, hu0, ← hend, Finset.mul_sum]
    refine Finset.sum_congr rfl fun j _ => ?_
    rw [Complex.real_smul, Complex.real_smul]
    ring
  have hflux : ∀ x, dgFluxAt (advection a) ((setColumn setups u).cells 1) x =
      a • (((P.eval x : ℝ) : ℂ) + Complex.I * ((Q.eval x : ℝ) : ℂ)) := by
    intro x
    have e : s.value (setCoeff s v) x = _ := congrFun hUf x
    rw [← e]
    have : (setColumn setups u).cells 1 = cell s v := by rw [← hu1]; rfl
    rw [this, dgFluxAt, flux_advection]
    rfl
  rw [hprev, hu1, hend] at hw
  simp only [hflux, hRf', iteratedDeriv_pair] at hw
  rw [hUf, hRf]
  simp only [iteratedDeriv_pair]
  -- integrals of pairs
  set x0 := (co 1).xLeft
  set x1 := (co 1).xRight
  have hint : ∀ A B : ℝ[X], ∫ x in x0..x1, (((A.eval x : ℝ) : ℂ) + Complex.I * ((B.eval x : ℝ) : ℂ)) =
      ((∫ x in x0..x1, A.eval x : ℝ) : ℂ) + Complex.I * ((∫ x in x0..x1, B.eval x : ℝ) : ℂ) := by
    intro A B
    rw [intervalIntegral.integral_add (Continuous.intervalIntegrable (by fun_prop) _ _)
      (Continuous.intervalIntegrable (by fun_prop) _ _), intervalIntegral.integral_const_mul, intervalIntegral.integral_ofReal,
      intervalIntegral.integral_ofReal]
  have i1 : ∀ φ : ℝ[X], ∫ x in x0..x1, φ.eval x • (((RP.eval x : ℝ) : ℂ) + Complex.I * ((RQ.eval x : ℝ) : ℂ)) =
      ((∫ x in x0..x1, (φ * RP).eval x : ℝ) : ℂ) + Complex.I * ((∫ x in x0..x1, (φ * RQ).eval x : ℝ) : ℂ) := by
    intro φ
    rw [← hint]
    congr 1
    funext x
    rw [Complex.real_smul, eval_mul, eval_mul]
    push_cast
    ring
  have i2 : ∀ φ : ℝ[X], ∫ x in x0..x1, (derivative φ).eval x • a • (((P.eval x : ℝ) : ℂ) + Complex.I * ((Q.eval x : ℝ) : ℂ)) =
      ((∫ x in x0..x1, (C a * (derivative φ * P)).eval x : ℝ) : ℂ) +
        Complex.I * ((∫ x in x0..x1, (C a * (derivative φ * Q)).eval x : ℝ) : ℂ) := by
    intro φ
    rw [← hint]
    congr 1
    funext x
    rw [Complex.real_smul, Complex.real_smul, eval_mul, eval_mul, eval_mul, eval_mul, eval_C]
    push_cast
    ring
  have i3 : ∫ x in x0..x1, (starRingEnd ℂ) (((P.eval x : ℝ) : ℂ) + Complex.I * ((Q.eval x : ℝ) : ℂ)) *
      (((RP.eval x : ℝ) : ℂ) + Complex.I * ((RQ.eval x : ℝ) : ℂ)) =
      ((∫ x in x0..x1, (P * RP + Q * RQ).eval x : ℝ) : ℂ) + Complex.I * ((∫ x in x0..x1, (P * RQ - Q * RP).eval x : ℝ) : ℂ) := by
    rw [← hint]
    congr 1
    funext x
    simp only [map_add, map_mul, Complex.conj_ofReal, Complex.conj_I, eval_add, eval_mul, eval_sub]
    push_cast
    linear_combination (-((Q.eval x : ℝ) : ℂ) * ((RQ.eval x : ℝ) : ℂ)) * Complex.I_sq
  have isum : ∫ x in x0..x1, (P * RP + Q * RQ).eval x = (∫ x in x0..x1, (P * RP).eval x) + ∫ x in x0..x1, (Q * RQ).eval x := by
    simp only [eval_add]
    exact intervalIntegral.integral_add ((P * RP).continuous.intervalIntegrable _ _) ((Q * RQ).continuous.intervalIntegrable _ _)
  have isq : ∀ A : ℝ[X], ∫ x in x0..x1, (C a * (derivative A * A)).eval x = a / 2 * (A.eval x1 ^ 2 - A.eval x0 ^ 2) := by
    intro A
    have e : C a * (derivative A * A) = derivative (C (a / 2) * A ^ 2) := by
      rw [derivative_C_mul, derivative_pow, show (a : ℝ) = a / 2 * 2 by ring, C_mul, show (a / 2 * 2 / 2 : ℝ) = a / 2 by ring]
      simp
      ring
    rw [e, intervalIntegral.integral_eq_sub_of_hasDerivAt (fun x _ => (C (a / 2) * A ^ 2).hasDerivAt x)
      ((derivative (C (a / 2) * A ^ 2)).continuous.intervalIntegrable _ _)]
    simp
    ring
  have w1 := congrArg Complex.re (hw P hP)
  have w2 := congrArg Complex.im (hw Q hQ)
  rw [i1, i2] at w1 w2
  rw [i3, isum]
  simp only [Complex.real_smul, Complex.add_re, Complex.sub_re, Complex.add_im, Complex.sub_im,
    Complex.mul_re, Complex.mul_im, Complex.ofReal_re, Complex.ofReal_im, Complex.I_re, Complex.I_im, zero_mul, sub_zero,
    add_zero, zero_sub, zero_add, one_mul, mul_zero, neg_zero, isq] at w1 w2
  simp only [Complex.mul_re, Complex.mul_im, Complex.ofReal_re, Complex.ofReal_im,
    map_add, map_mul, Complex.conj_ofReal, Complex.conj_I, Complex.add_re, Complex.add_im, Complex.neg_re, Complex.neg_im,
    Complex.I_re, Complex.I_im, Complex.normSq_apply, Complex.sub_re, Complex.sub_im, zero_mul, mul_zero, sub_zero, zero_add,
    add_zero, zero_sub, one_mul, neg_mul, mul_neg, neg_zero, sub_neg_eq_add, neg_neg]
  have hzn : z.re ^ 2 + z.im ^ 2 = 1 := by
    have h1 : Complex.normSq z = 1 := by
      rw [hz, Complex.normSq_eq_norm_sq, show -(Complex.I * (kappa : ℂ)) = ((-kappa : ℝ) : ℂ) * Complex.I by push_cast; ring,
        Complex.norm_exp_ofReal_mul_I, one_pow]
    rw [Complex.normSq_apply] at h1
    linarith
  linear_combination w1 + w2 + a / 2 * (P.eval x1 ^ 2 + Q.eval x1 ^ 2) * hzn

/-- The rate of a wave: its energy times the real part of its eigenvalue is what the jump at the faces takes away. -/
theorem vincent_decay (ex : maker.Exact) (nodal : maker.Nodal) (hh : 0 < h) (ha : 0 ≤ a) {co : Fin (n + 2) → Coordinate}
    {setups : Fin (n + 2) → Setup p} (hq : Equal maker h co setups) {mu : ℕ → ℝ} {g : PyPoly.Vincent}
    (hg : PyPoly.vincent (p + 1) mu = some g) (hmu : mu p ≠ 0) (hp : 1 ≤ p ∨ mu 0 = 1) {kappa : ℝ}
    {m : Matrix (Fin (p + 1)) (Fin (p + 1)) ℂ}
    (hm : spatialMatrix (.fr (.vincent g)) a setups kappa = some m) {v : Fin (p + 1) → ℂ} {lambda : ℂ}
    (hv : m.mulVec v = lambda • v) :
    lambda.re * sobolevEnergy (mu p) (co 1) (setups 1) v =
      -(a / 2) * Complex.normSq ((setups 1).value (setCoeff (setups 1) v) (co 1).xLeft -
        Complex.exp (-(Complex.I * kappa)) * (setups 1).value (setCoeff (setups 1) v) (co 1).xRight) := by
  rw [← vincent_energy ex nodal hh ha hq hg hmu hp hm v, hv]
  have hc : (co 1).xLeft < (co 1).xRight := by have := hq.length 1; linarith
  obtain ⟨P, Q, hP, hQ, hU⟩ := complex_poly hc (built ex (hq.made 1)) v
  set s := setups 1
  have hUf : s.value (setCoeff s v) = fun x => ((P.eval x : ℝ) : ℂ) + Complex.I * ((Q.eval x : ℝ) : ℂ) := funext hU
  have hRf : s.value (setCoeff s (lambda • v)) = fun x =>
      (((C lambda.re * P - C lambda.im * Q).eval x : ℝ) : ℂ) + Complex.I * (((C lambda.re * Q + C lambda.im * P).eval x : ℝ) : ℂ) := by
    funext x
    have e : s.value (setCoeff s (lambda • v)) x = lambda * s.value (setCoeff s v) x := by
      rw [value_row, value_row, Finset.mul_sum]
      refine Finset.sum_congr rfl fun j _ => ?_
      rw [Pi.smul_apply, smul_eq_mul, Complex.real_smul, Complex.real_smul]
      ring
    rw [e, hUf]
    apply Complex.ext <;> simp
  have hder : ∀ A B : ℝ[X], ∀ r t : ℝ, iteratedDeriv p (fun x => (C r * A + C t * B).eval x) 0 =
      r * iteratedDeriv p (fun x => A.eval x) 0 + t * iteratedDeriv p (fun x => B.eval x) 0 := by
    intro A B r t
    have e1 : ∀ P : ℝ[X], (fun x => P.eval x) = fun x => ∑ k : Fin 1, ((fun _ : Fin 1 => P) k).eval x • (fun _ : Fin 1 => (1 : ℝ)) k := by
      intro P
      funext x
      simp
    rw [e1 A, e1 B, e1, PyFR.iteratedDeriv_comb, PyFR.iteratedDeriv_comb, PyFR.iteratedDeriv_comb]
    simp
  have hneg : C lambda.re * P - C lambda.im * Q = C lambda.re * P + C (-lambda.im) * Q := by rw [C_neg]; ring
  rw [hneg] at hRf
  unfold sobolevEnergy
  rw [hUf, hRf]
  simp only [iteratedDeriv_pair, hder]
  rw [Complex.add_re]
  have hconj : ∀ x : ℝ, (starRingEnd ℂ) (((P.eval x : ℝ) : ℂ) + Complex.I * ((Q.eval x : ℝ) : ℂ)) *
      (((C lambda.re * P + C (-lambda.im) * Q).eval x : ℝ) + Complex.I * ((C lambda.re * Q + C lambda.im * P).eval x : ℝ)) =
      lambda * ((Complex.normSq (((P.eval x : ℝ) : ℂ) + Complex.I * ((Q.eval x : ℝ) : ℂ)) : ℝ) : ℂ) := by
    intro x
    apply Complex.ext <;> simp [Complex.normSq_apply] <;> ring
  simp only [hconj]
  rw [intervalIntegral.integral_const_mul, intervalIntegral.integral_ofReal]
  simp [Complex.normSq_apply]
  ring

/-- No wave of flux reconstruction with a ratio between zero and one grows: no modified wave number has a positive imaginary part,
and one has none only if the wave is continuous at the faces. -/
theorem vincent_stable (ex : maker.Exact) (nodal : maker.Nodal) (hh : 0 < h) (ha : 0 < a) {co : Fin (n + 2) → Coordinate}
    {setups : Fin (n + 2) → Setup p} (hq : Equal maker h co setups) {mu : ℕ → ℝ} {g : PyPoly.Vincent}
    (hg : PyPoly.vincent (p + 1) mu = some g) (h0 : 0 < mu p) (h1 : mu p ≤ 1) (hp : 1 ≤ p ∨ mu 0 = 1) {kappa : ℝ}
    {m : Matrix (Fin (p + 1)) (Fin (p + 1)) ℂ}
    (hm : modifiedMatrix (.fr (.vincent g)) a setups kappa = some m) {v : Fin (p + 1) → ℂ} (hv0 : v ≠ 0) {tilde : ℂ}
    (hv : m.mulVec v = tilde • v) :
    tilde.im ≤ 0 ∧ (tilde.im = 0 ↔ (setups 1).value (setCoeff (setups 1) v) (co 1).xLeft =
      Complex.exp (-(Complex.I * kappa)) * (setups 1).value (setCoeff (setups 1) v) (co 1).xRight) := by
  obtain ⟨M, hM, rfl⟩ : ∃ M, spatialMatrix (.fr (.vincent g)) a setups kappa = some M ∧
      (Complex.I * ((setups 0).coordinate.length : ℂ) / a) • M = m := by
    simpa [modifiedMatrix, Option.map_eq_some_iff] using hm
  have hc : ∀ i, (co i).xLeft < (co i).xRight := fun i => by have := hq.length i; linarith
  have hlen : (setups 0).coordinate.length = h := by
    rw [((built ex (hq.made 0)).sane (hc 0)).2, (co 0).eq_linear.1, hq.length]
  have hhC : (h : ℂ) ≠ 0 := by exact_mod_cast hh.ne'
  have haC : (a : ℂ) ≠ 0 := by exact_mod_cast ha.ne'
  rw [hlen] at hv
  have hMv : M.mulVec v = (-(Complex.I * tilde * a / h)) • v := by
    have e : (-(Complex.I * a / h)) • ((Complex.I * (h : ℂ) / a) • M).mulVec v = M.mulVec v := by
      rw [Matrix.smul_mulVec, smul_smul]
      have : -(Complex.I * a / h) * (Complex.I * (h : ℂ) / a) = 1 := by
        field_simp
        rw [Complex.I_sq, neg_neg]
      rw [this, one_smul]
    rw [← e, hv, smul_smul]
    congr 1
    ring
  have key := vincent_decay ex nodal hh ha.le hq hg h0.ne' hp hM hMv
  have hre : (-(Complex.I * tilde * a / h)).re = a / h * tilde.im := by
    rw [show -(Complex.I * tilde * a / h) = ((-(a / h) : ℝ) : ℂ) * (Complex.I * tilde) by push_cast; ring, Complex.re_ofReal_mul]
    simp
  rw [hre] at key
  have hE := sobolev_pos (hc 1) (built ex (hq.made 1)) h0 h1 hv0
  have hah : 0 < a / h := div_pos ha hh
  set N := Complex.normSq ((setups 1).value (setCoeff (setups 1) v) (co 1).xLeft -
        Complex.exp (-(Complex.I * kappa)) * (setups 1).value (setCoeff (setups 1) v) (co 1).xRight) with hN
  have hN0 : 0 ≤ N := Complex.normSq_nonneg _
  have hpos : 0 < a / h * sobolevEnergy (mu p) (co 1) (setups 1) v := mul_pos hah hE
  have hN1 : N = 0 ↔ (setups 1).value (setCoeff (setups 1) v) (co 1).xLeft =
      Complex.exp (-(Complex.I * kappa)) * (setups 1).value (setCoeff (setups 1) v) (co 1).xRight := by
    rw [hN, Complex.normSq_eq_zero, sub_eq_zero]
  have key' : tilde.im * (a / h * sobolevEnergy (mu p) (co 1) (setups 1) v) = -(a / 2) * N := by linarith
  refine ⟨?_, ?_⟩
  · by_contra hcon
    have := mul_pos (not_le.1 hcon) hpos
    have := mul_nonneg ha.le hN0
    linarith
  · rw [← hN1]
    constructor
    · intro h0
      rw [h0, zero_mul] at key'
      have : a / 2 ≠ 0 := by positivity
      simpa [this, ha.ne'] using key'.symm
    · intro h0
      rw [h0, mul_zero] at key'
      exact (mul_eq_zero.1 key').resolve_right hpos.ne'

/-- Linear polynomials on the roots of Legendre with the ratio of the spectral difference scheme. -/
example : ∃ (co : Fin 2 → Coordinate) (setups : Fin 2 → Setup 1) (g : PyPoly.Vincent),
    Equal (.legendreRoots gauss2) 1 co setups ∧ (Maker.legendreRoots gauss2).Exact ∧ (Maker.legendreRoots gauss2).Nodal ∧
    PyPoly.vincent 2 PyPoly.muDifference = some g ∧ 0 < PyPoly.muDifference 1 ∧ PyPoly.muDifference 1 < 1 := by
  have hc : ∀ i : Fin 2, (Coordinate.linear i (i + 1)).xLeft < (Coordinate.linear i (i + 1)).xRight := fun i => by
    simp [Coordinate.xLeft, Coordinate.xRight]
  choose s hs using fun i : Fin 2 => (constructors (hc i) gauss2_exact).2.1
  exact ⟨fun i => .linear i (i + 1), s, _, ⟨fun i => by simp [Coordinate.xLeft, Coordinate.xRight], hs⟩, gauss2_exact, trivial, rfl,
    by norm_num [PyPoly.muDifference], by norm_num [PyPoly.muDifference]⟩

end MiniCFD.PyWave
