import Verif.Props.PyWave
import Verif.Props.PyFRDG
import Verif.Lemmas.PyLimiter

/-! # C123: the waves of the schemes do not grow -/

namespace MiniCFD.PyWave
open MiniCFD.PyQuad MiniCFD.PyExpansion MiniCFD.PyDG Polynomial
open MiniCFD.Spec.PyWave
open MiniCFD.Spec.PyPoly (IsPair)

variable {p n : ℕ} {maker : Maker p} {h a : ℝ} {scheme : Scheme}

/-- Which class an expansion is of. -/
def Maker.kind : Maker p → Kind
  | .uniform _ => .uniform
  | .legendreRoots _ => .legendreRoots
  | .lobatto => .lobatto
  | .modal _ => .modal

theorem make_kind {c : Coordinate} {s : Setup p} (hs : maker.make c = some s) : s.kind = Maker.kind maker := by
  have key : ∀ {k : Kind} {nodes : Fin (p + 1) → ℝ} {rule : Rule p}, lagrange k c nodes rule = some s → s.kind = k := by
    intro k nodes rule h
    unfold lagrange at h
    dsimp only at h
    split_ifs at h
    cases h
    rfl
  cases maker with
  | uniform rule => exact key hs
  | legendreRoots rule => exact key hs
  | lobatto =>
    change onLobattoRoots p c = some s at hs
    unfold onLobattoRoots at hs
    cases hq : PyQuad.lobatto p with
    | none => simp [hq] at hs
    | some rule =>
      simp only [hq, Option.bind_some] at hs
      exact key hs
  | modal rule =>
    change PyExpansion.modal c rule = some s at hs
    unfold PyExpansion.modal at hs
    dsimp only at hs
    split_ifs at hs
    cases hs
    rfl

theorem kind_lobatto {c : Coordinate} {s : Setup p} (hs : maker.make c = some s) (hk : s.kind = .lobatto) :
    maker = .lobatto := by
  rw [make_kind hs] at hk
  cases maker <;> simp_all [Maker.kind]

/-- The function of a column is a pair of polynomials. -/
theorem complex_poly {c : Coordinate} (hc : c.xLeft < c.xRight) {s : Setup p} (hb : Built c s) (v : Fin (p + 1) → ℂ) :
    ∃ P Q : ℝ[X], P.natDegree ≤ p ∧ Q.natDegree ≤ p ∧ ∀ x, field s v x = ((P.eval x : ℝ) : ℂ) + Complex.I * ((Q.eval x : ℝ) : ℂ) := by
  choose q hq using fun i => (basis_values hc hb i).1
  refine ⟨∑ i, C (v i).re * q i, ∑ i, C (v i).im * q i,
    natDegree_sum_le_of_forall_le _ _ fun i _ => (natDegree_C_mul_le _ _).trans (hq i).1,
    natDegree_sum_le_of_forall_le _ _ fun i _ => (natDegree_C_mul_le _ _).trans (hq i).1, fun x => ?_⟩
  rw [field_eq hc hb]
  simp only [eval_finsetSum, eval_mul, eval_C, Complex.ofReal_sum, Finset.mul_sum, ← Finset.sum_add_distrib, Complex.ofReal_mul]
  refine Finset.sum_congr rfl fun i _ => ?_
  rw [Complex.real_smul, (hq i).2]
  conv_lhs => rw [← Complex.re_add_im (v i)]
  ring

/-- The energy of a column on an element, with the quadrature of the element. -/
noncomputable def energy (s : Setup p) (v : Fin (p + 1) → ℂ) : ℝ :=
  s.integrator.integrate fun x => Complex.normSq (s.value (setCoeff s v) x)

theorem energy_pos {c : Coordinate} (hc : c.xLeft < c.xRight) {s : Setup p} (hb : Built c s) {v : Fin (p + 1) → ℂ} (hv : v ≠ 0) :
    0 < energy s v := by
  have hw := (PyLimiter.built_integrator hc hb).1
  rw [energy, Integrator.integrate_eq]
  simp only [smul_eq_mul]
  have hnn : ∀ q ∈ Finset.univ, 0 ≤ s.integrator.weights q * Complex.normSq (s.value (setCoeff s v) (s.integrator.points q)) :=
    fun q _ => mul_nonneg (hw q).le (Complex.normSq_nonneg _)
  refine lt_of_le_of_ne (Finset.sum_nonneg hnn) fun h0 => hv ?_
  have hz := (Finset.sum_eq_zero_iff_of_nonneg hnn).1 h0.symm
  refine residual_unique hc hb v fun φ _ => ?_
  rw [Integrator.integrate_eq]
  refine Finset.sum_eq_zero fun q hq => ?_
  have := (mul_eq_zero.1 (hz q hq)).resolve_left (hw q).ne'
  rw [Complex.normSq_eq_zero] at this
  rw [field, this, smul_zero, smul_zero]

/-- The rate of the energy of a wave is minus half the speed times the square of its jump at the faces. -/
theorem wave_energy (ex : maker.Exact) (hl : maker = .lobatto → p ≤ 5) (hh : 0 < h) (ha : 0 ≤ a) {co : Fin (n + 2) → Coordinate}
    {setups : Fin (n + 2) → Setup p} (hq : Equal maker h co setups) {kappa : ℝ} {m : Matrix (Fin (p + 1)) (Fin (p + 1)) ℂ}
    (hm : spatialMatrix .dg a setups kappa = some m) (v : Fin (p + 1) → ℂ) :
    ((setups 1).integrator.integrate fun x => (starRingEnd ℂ) ((setups 1).value (setCoeff (setups 1) v) x) *
        (setups 1).value (setCoeff (setups 1) (m.mulVec v)) x).re =
      -(a / 2) * Complex.normSq ((setups 1).value (setCoeff (setups 1) v) (co 1).xLeft -
        Complex.exp (-(Complex.I * kappa)) * (setups 1).value (setCoeff (setups 1) v) (co 1).xRight) := by
  have hc : ∀ i, (co i).xLeft < (co i).xRight := fun i => by have := hq.length i; linarith
  have hb : ∀ i, Built (co i) (setups i) := fun i => built ex (hq.made i)
  have h10 : (1 : Fin (n + 2)) ≠ 0 := by simp
  set z : ℂ := Complex.exp (-(Complex.I * kappa)) with hz
  -- the wave that is `v` on the second element
  set v' : Fin (p + 1) → ℂ := (phase kappa ((1 : Fin (n + 2)) : ℕ))⁻¹ • v with hv'
  set u : Fin (n + 2) → Fin (p + 1) → ℂ := fun j k => v' k * phase kappa j with hu
  have hne := phase_ne kappa ((1 : Fin (n + 2)) : ℕ)
  have hu1 : u 1 = v := by
    funext k
    simp only [hu, hv', Pi.smul_apply, smul_eq_mul]
    field_simp
  have hu0 : u (1 - 1) = fun k => z * v k := by
    funext k
    simp only [hu, hv', Pi.smul_apply, smul_eq_mul, phase_pred kappa h10, ← hz]
    field_simp
  have hres : PyDG.residual (advection a) (setColumn setups u) 1 = some (m.mulVec v) := by
    have := wave_residual (scheme := .dg) ex trivial hh ha hq hm v' 1 (.inl h10)
    rw [show PyDG.residual (advection a) (setColumn setups u) 1 =
      residual .dg (advection a) (setColumn setups u) 1 from rfl, this]
    congr 1
    funext k
    rw [hv', Matrix.mulVec_smul, Pi.smul_apply, smul_eq_mul]
    field_simp
  obtain ⟨r, hr, hw⟩ := PyDG.weak_form (hc 1) (advection a) ((setColumn setups u).cells 1) (hb 1) (.coeff (u 1) rfl)
    (faceData (advection a) (setColumn setups u) 1)
  rw [PyDG.residual, hr] at hres
  cases hres
  rw [faces ha] at hw
  dsimp only at hw
  obtain ⟨P, Q, hP, hQ, hU⟩ := complex_poly (hc 1) (hb 1) v
  set s := setups 1 with hs
  have hset : ((setColumn setups u).cells 1).setup = s := rfl
  rw [hset] at hw
  have hUv : ∀ x, s.value (setCoeff s v) x = ((P.eval x : ℝ) : ℂ) + Complex.I * ((Q.eval x : ℝ) : ℂ) := hU
  have hend : ∑ j, endRow s false j • v j = ((P.eval (co 1).xRight : ℝ) : ℂ) + Complex.I * ((Q.eval (co 1).xRight : ℝ) : ℂ) := by
    rw [← boundary_row, ((value_derivatives (hc 1) (hb 1) (Reached.coeff (st := setCoeff s v) v rfl) 0).2 0).2.2.2.1,
      iteratedDeriv_zero, hUv]
  have hprev : ∑ j, endRow (setups (1 - 1)) false j • u (1 - 1) j =
      z * (((P.eval (co 1).xRight : ℝ) : ℂ) + Complex.I * ((Q.eval (co 1).xRight : ℝ) : ℂ)) := by
    have tw : Twin ((co (1 - 1)).xLeft - (co 1).xLeft) s (setups (1 - 1)) :=
      make_twin (by ring) (by have := hq.length 1; have := hq.length (1 - 1); linarith) (hq.made 1) (hq.made (1 - 1))
    rw [tw.endRow_eq, hu0, ← hend, Finset.mul_sum]
    refine Finset.sum_congr rfl fun j _ => ?_
    rw [Complex.real_smul, Complex.real_smul]
    ring
  have hflux : ∀ x, dgFluxAt (advection a) ((setColumn setups u).cells 1) x =
      a • (((P.eval x : ℝ) : ℂ) + Complex.I * ((Q.eval x : ℝ) : ℂ)) := by
    intro x
    rw [← hUv x]
    have : (setColumn setups u).cells 1 = cell s v := by rw [← hu1]; rfl
    rw [this, dgFluxAt, flux_advection]
    rfl
  rw [hprev, hu1, hend] at hw
  simp only [hflux, smul_zero, add_zero, sub_zero] at hw
  -- the two tests
  have w1 := congrArg Complex.re (hw P hP)
  have w2 := congrArg Complex.im (hw Q hQ)
  set R : ℝ → ℂ := field s (m.mulVec v) with hR
  set x0 := (co 1).xLeft
  set x1 := (co 1).xRight
  have hW := integrate_derivative (hc 1) (hb 1) (fun hk => hl (kind_lobatto (hq.made 1) hk)) (P ^ 2 + Q ^ 2)
    (.inl ((natDegree_add_le _ _).trans (max_le (natDegree_pow_le.trans (Nat.mul_le_mul_left 2 hP))
      (natDegree_pow_le.trans (Nat.mul_le_mul_left 2 hQ)))))
  change s.integrator.integrate _ = _ at hW
  simp only [derivative_add, derivative_pow, eval_add, eval_mul, eval_pow] at hW
  simp only [Integrator.integrate_eq] at w1 w2 hW ⊢
  simp only [Complex.real_smul, Complex.add_re, Complex.sub_re, Complex.add_im, Complex.sub_im, Complex.re_sum, Complex.im_sum,
    Complex.mul_re, Complex.mul_im, Complex.ofReal_re, Complex.ofReal_im, Complex.I_re, Complex.I_im, zero_mul, sub_zero,
    add_zero, zero_sub, zero_add, one_mul, mul_zero, neg_zero, smul_eq_mul] at w1 w2 hW
  have hRv : ∀ x, s.value (setCoeff s (m.mulVec v)) x = R x := fun x => rfl
  simp only [hUv, hRv, Complex.real_smul, Complex.re_sum, Complex.mul_re, Complex.mul_im, Complex.ofReal_re, Complex.ofReal_im,
    map_add, map_mul, Complex.conj_ofReal, Complex.conj_I, Complex.add_re, Complex.add_im, Complex.neg_re, Complex.neg_im,
    Complex.I_re, Complex.I_im, Complex.normSq_apply, Complex.sub_re, Complex.sub_im, zero_mul, mul_zero, sub_zero, zero_add,
    add_zero, zero_sub, one_mul, neg_mul, mul_neg, neg_zero, sub_neg_eq_add, neg_neg]
  have hlhs : ∑ q, s.integrator.weights q * (P.eval (s.integrator.points q) * (R (s.integrator.points q)).re +
      Q.eval (s.integrator.points q) * (R (s.integrator.points q)).im) =
      ∑ q, s.integrator.weights q * (P.eval (s.integrator.points q) * (R (s.integrator.points q)).re) +
      ∑ q, s.integrator.weights q * (Q.eval (s.integrator.points q) * (R (s.integrator.points q)).im) := by
    rw [← Finset.sum_add_distrib]
    exact Finset.sum_congr rfl fun q _ => by ring
  have hzn : z.re ^ 2 + z.im ^ 2 = 1 := by
    have h1 : Complex.normSq z = 1 := by
      rw [hz, Complex.normSq_eq_norm_sq, show -(Complex.I * (kappa : ℂ)) = ((-kappa : ℝ) : ℂ) * Complex.I by push_cast; ring,
        Complex.norm_exp_ofReal_mul_I, one_pow]
    rw [Complex.normSq_apply] at h1
    linarith
  have hsum : a * ((P.eval x1 ^ 2 + Q.eval x1 ^ 2 - (P.eval x0 ^ 2 + Q.eval x0 ^ 2)) / 2) =
      ∑ q, s.integrator.weights q * ((derivative P).eval (s.integrator.points q) * (a * P.eval (s.integrator.points q))) +
      ∑ q, s.integrator.weights q * ((derivative Q).eval (s.integrator.points q) * (a * Q.eval (s.integrator.points q))) := by
    rw [← hW, ← Finset.sum_add_distrib, Finset.sum_div, Finset.mul_sum]
    refine Finset.sum_congr rfl fun q _ => ?_
    simp
    ring
  rw [hlhs, w1, w2]
  linear_combination -hsum + a / 2 * (P.eval x1 ^ 2 + Q.eval x1 ^ 2) * hzn

/-- The rate at which a wave of the discontinuous Galerkin schemes decays is given by its jump at the faces. -/
theorem wave_decay (ex : maker.Exact) (hl : maker = .lobatto → p ≤ 5) (hh : 0 < h) (ha : 0 ≤ a) {co : Fin (n + 2) → Coordinate}
    {setups : Fin (n + 2) → Setup p} (hq : Equal maker h co setups) {kappa : ℝ} {m : Matrix (Fin (p + 1)) (Fin (p + 1)) ℂ}
    (hm : spatialMatrix .dg a setups kappa = some m) {v : Fin (p + 1) → ℂ} {lambda : ℂ} (hv : m.mulVec v = lambda • v) :
    lambda.re * energy (setups 1) v =
      -(a / 2) * Complex.normSq ((setups 1).value (setCoeff (setups 1) v) (co 1).xLeft -
        Complex.exp (-(Complex.I * kappa)) * (setups 1).value (setCoeff (setups 1) v) (co 1).xRight) := by
  rw [← wave_energy ex hl hh ha hq hm v, hv, energy]
  have hlin : ∀ x, (setups 1).value (setCoeff (setups 1) (lambda • v)) x =
      lambda * (setups 1).value (setCoeff (setups 1) v) x := by
    intro x
    rw [value_row, value_row, Finset.mul_sum]
    refine Finset.sum_congr rfl fun j _ => ?_
    rw [Pi.smul_apply, smul_eq_mul, Complex.real_smul, Complex.real_smul]
    ring
  simp only [Integrator.integrate_eq, hlin, Complex.re_sum, Finset.mul_sum, smul_eq_mul, Complex.real_smul]
  refine Finset.sum_congr rfl fun q _ => ?_
  rw [show ∀ w z l : ℂ, w * ((starRingEnd ℂ) z * (l * z)) = w * (l * (z * (starRingEnd ℂ) z)) from fun w z l => by ring,
    Complex.mul_conj]
  simp
  ring

/-- No wave of the discontinuous Galerkin schemes grows: no eigenvalue has a positive real part, and no modified wave number has a
positive imaginary part. -/
theorem stable (ex : maker.Exact) (hl : maker = .lobatto → p ≤ 5) (hh : 0 < h) (ha : 0 < a) {co : Fin (n + 2) → Coordinate}
    {setups : Fin (n + 2) → Setup p} (hq : Equal maker h co setups) {kappa : ℝ} {m : Matrix (Fin (p + 1)) (Fin (p + 1)) ℂ}
    (hm : modifiedMatrix .dg a setups kappa = some m) {v : Fin (p + 1) → ℂ} (hv0 : v ≠ 0) {tilde : ℂ}
    (hv : m.mulVec v = tilde • v) :
    tilde.im ≤ 0 ∧ (tilde.im = 0 ↔ (setups 1).value (setCoeff (setups 1) v) (co 1).xLeft =
      Complex.exp (-(Complex.I * kappa)) * (setups 1).value (setCoeff (setups 1) v) (co 1).xRight) := by
  obtain ⟨M, hM, rfl⟩ : ∃ M, spatialMatrix .dg a setups kappa = some M ∧
      (Complex.I * ((setups 0).coordinate.length : ℂ) / a) • M = m := by
    simpa [modifiedMatrix, Option.map_eq_some_iff] using hm
  have hc : ∀ i, (co i).xLeft < (co i).xRight := fun i => by have := hq.length i; linarith
  have hlen : (setups 0).coordinate.length = h := by
    rw [((built ex (hq.made 0)).sane (hc 0)).2, (co 0).eq_linear.1, hq.length]
  have hhC : (h : ℂ) ≠ 0 := by exact_mod_cast hh.ne'
  have haC : (a : ℂ) ≠ 0 := by exact_mod_cast ha.ne'
  rw [hlen] at hv
  have hMv : M.mulVec v = (-(Complex.I * tilde * a / h)) • v := by
    have e : (-(Complex.I * a / h)) • ((Complex.I * (h : ℂ) / a) • M).mulVec v = M.mulVec v := by
      rw [Matrix.smul_mulVec, smul_smul]
      have : -(Complex.I * a / h) * (Complex.I * (h : ℂ) / a) = 1 := by
        field_simp
        rw [Complex.I_sq, neg_neg]
      rw [this, one_smul]
    rw [← e, hv, smul_smul]
    congr 1
    ring
  have key := wave_decay ex hl hh ha.le hq hM hMv
  have hre : (-(Complex.I * tilde * a / h)).re = a / h * tilde.im := by
    rw [show -(Complex.I * tilde * a / h) = ((-(a / h) : ℝ) : ℂ) * (Complex.I * tilde) by push_cast; ring, Complex.re_ofReal_mul]
    simp
  rw [hre] at key
  have hE := energy_pos (hc 1) (built ex (hq.made 1)) hv0
  have hah : 0 < a / h := div_pos ha hh
  set N := Complex.normSq ((setups 1).value (setCoeff (setups 1) v) (co 1).xLeft -
        Complex.exp (-(Complex.I * kappa)) * (setups 1).value (setCoeff (setups 1) v) (co 1).xRight) with hN
  have hN0 : 0 ≤ N := Complex.normSq_nonneg _
  have hpos : 0 < a / h * energy (setups 1) v := mul_pos hah hE
  have hN1 : N = 0 ↔ (setups 1).value (setCoeff (setups 1) v) (co 1).xLeft =
      Complex.exp (-(Complex.I * kappa)) * (setups 1).value (setCoeff (setups 1) v) (co 1).xRight := by
    rw [hN, Complex.normSq_eq_zero, sub_eq_zero]
  have key' : tilde.im * (a / h * energy (setups 1) v) = -(a / 2) * N := by linarith
  refine ⟨?_, ?_⟩
  · by_contra hcon
    have := mul_pos (not_le.1 hcon) hpos
    have := mul_nonneg ha.le hN0
    linarith
  · rw [← hN1]
    constructor
    · intro h0
      rw [h0, zero_mul] at key'
      have : a / 2 ≠ 0 := by positivity
      simpa [this, ha.ne'] using key'.symm
    · intro h0
      rw [h0, mul_zero] at key'
      exact (mul_eq_zero.1 key').resolve_right hpos.ne'

/-- Flux reconstruction has the matrix of the discontinuous Galerkin scheme, so the same waves: on Lobatto nodes with the default
correction function, on the other nodes with `discontinuous_galerkin`. -/
theorem fr_same (ex : maker.Exact) (hh : 0 < h) (ha : 0 ≤ a) {co : Fin (n + 2) → Coordinate} {setups : Fin (n + 2) → Setup p}
    (hq : Equal maker h co setups) {v : PyPoly.Vincent}
    (hv : (maker = .lobatto ∧ p ≤ 5 ∧ PyPoly.vincent (p + 1) PyPoly.muLobatto = some v) ∨
      (((∃ rule, maker = .uniform rule) ∨ ∃ rule, maker = .legendreRoots rule) ∧
        PyPoly.vincent (p + 1) PyPoly.muGalerkin = some v)) (kappa : ℝ) :
    spatialMatrix (.fr (.vincent v)) a setups kappa = spatialMatrix .dg a setups kappa := by
  have hc : ∀ i, (co i).xLeft < (co i).xRight := fun i => by have := hq.length i; linarith
  have hdeg : PyFR.addCorrection p (.vincent v) = some (.vincent v) := by
    have : v.k = p := by
      rcases hv with ⟨_, _, hv⟩ | ⟨_, hv⟩ <;> obtain ⟨_, _, rfl⟩ := PyPoly.vincent_eq hv <;> simp
    rw [PyFR.addCorrection, if_pos (by rw [PyFR.Correction.degree, this])]
  have hres : ∀ u i, residual (.fr (.vincent v)) (advection a) (setColumn setups u) i =
      residual .dg (advection a) (setColumn setups u) i := by
    intro u i
    have hkind : ∀ i, ((setColumn setups u).cells i).setup.kind = Maker.kind maker := fun i => make_kind (hq.made i)
    obtain ⟨r, h1, h2⟩ := PyFR.same_as_dg hc (advection a) (setColumn setups u) (fun i => built ex (hq.made i))
      (fun i => .coeff (u i) rfl) (fun i => rfl) rfl (fun _ => rfl) (v := v) (by
        rcases hv with ⟨hm, h5, hv⟩ | ⟨hm, hv⟩
        · exact .inl ⟨hv, h5, fun i => by rw [hkind, hm]; rfl⟩
        · refine .inr ⟨hv, ⟨a • LinearMap.id, fun u => rfl⟩, fun i => ?_⟩
          rw [hkind]
          rcases hm with ⟨rule, rfl⟩ | ⟨rule, rfl⟩
          · exact .inl rfl
          · exact .inr rfl) i
    unfold residual
    dsimp only
    rw [hdeg, h1, h2]
  have hcol : (blockColumn (.fr (.vincent v)) a setups kappa : Fin (n + 2) → _) = blockColumn .dg a setups kappa := by
    funext i j
    simp only [blockColumn, hres]
  unfold spatialMatrix block
  rw [hcol]

/-- What the schemes need to keep constants. -/
def Consistent (maker : Maker p) : Scheme → Prop
  | .dg => maker = .lobatto → p ≤ 5
  | .fr g => IsPair (p + 1) g.value g.gradient

/-- The wave without oscillation is a constant, and it stays. -/
theorem constant_stays (ex : maker.Exact) (fits : Fits maker scheme) (hh : 0 < h) (ha : 0 ≤ a)
    (hs : Consistent maker scheme)
    {co : Fin (n + 2) → Coordinate} {setups : Fin (n + 2) → Setup p} (hq : Equal maker h co setups)
    {m : Matrix (Fin (p + 1)) (Fin (p + 1)) ℂ} (hm : spatialMatrix scheme a setups 0 = some m) {v : Fin (p + 1) → ℂ}
    (hv : ∀ x, (setups 1).value (setCoeff (setups 1) v) x = 1) : m.mulVec v = 0 := by
  have hc : ∀ i, (co i).xLeft < (co i).xRight := fun i => by have := hq.length i; linarith
  have hval : ∀ i x, (setups i).value (setCoeff (setups i) v) x = 1 := by
    intro i x
    have tw : Twin ((co i).xLeft - (co 1).xLeft) (setups 1) (setups i) :=
      make_twin (by ring) (by have := hq.length 1; have := hq.length i; linarith) (hq.made 1) (hq.made i)
    have := hv (x - ((co i).xLeft - (co 1).xLeft))
    rw [value_row, ← tw.valueRow_eq, sub_add_cancel] at this
    rw [value_row, this]
  have hphase : ∀ i, phase 0 i = 1 := fun i => by simp [phase]
  have key := wave_residual ex fits hh ha hq hm v 1 (.inr (hphase _))
  simp only [hphase, mul_one] at key
  have hup : (advection a).upwind 1 1 = (advection a).convective 1 := by simp [advection]
  have h0 : residual scheme (advection a) (setColumn setups fun _ k => v k) 1 = some 0 := by
    cases scheme with
    | dg =>
      exact PyDG.free_stream hc (advection a) (setColumn setups fun _ k => v k) (fun i => built ex (hq.made i))
        (fun i hk => hs (kind_lobatto (hq.made i) hk)) (fun i => .coeff v rfl) 1 hval hup (fun nu => by simp [advection])
        (.inl rfl) 1
    | fr g =>
      rw [residual, PyFR.addCorrection, if_pos fits.2]
      exact PyFR.free_stream hc (advection a) (setColumn setups fun _ k => v k) (fun i => built ex (hq.made i))
        (fun i => nodal fits.1 (hq.made i)) (fun i => .coeff v rfl) hs 1 hval hup (fun nu => by simp [advection])
        (.inl rfl) 1
  rw [h0] at key
  exact (Option.some.inj key).symm

/-- Elements of degree 0: the upwind scheme, and its modified wave number. -/
theorem first_order {maker : Maker 0} (ex : maker.Exact) (hh : 0 < h) (ha : 0 < a) {co : Fin (n + 2) → Coordinate}
    {setups : Fin (n + 2) → Setup 0} (hq : Equal maker h co setups) (kappa : ℝ) :
    ∃ m, modifiedMatrix .dg a setups kappa = some m ∧
      m 0 0 = (Real.sin kappa : ℂ) + Complex.I * (Real.cos kappa - 1 : ℝ) := by
  have hc : ∀ i, (co i).xLeft < (co i).xRight := fun i => by have := hq.length i; linarith
  obtain ⟨M, hM, _⟩ := symbol (scheme := .dg) ex trivial hh ha.le
  obtain ⟨hs, _⟩ := hM n co setups hq kappa
  have hlen : (setups 0).coordinate.length = h := by
    rw [((built ex (hq.made 0)).sane (hc 0)).2, (co 0).eq_linear.1, hq.length]
  refine ⟨_, by rw [modifiedMatrix, hs, Option.map_some], ?_⟩
  have sumC : ∀ f : Fin (0 + 1) → ℂ, ∑ j, f j = f 0 := fun f => Fin.sum_univ_one f
  have sumR : ∀ f : Fin (0 + 1) → ℝ, ∑ j, f j = f 0 := fun f => Fin.sum_univ_one f
  have h10 : (1 : Fin (n + 2)) ≠ 0 := by simp
  have hb : ∀ i, Built (co i) (setups i) := fun i => built ex (hq.made i)
  have hnl : ∀ i, (setups i).kind ≠ .lobatto := by
    intro i hk
    have := kind_lobatto (hq.made i) hk
    subst this
    have := hq.made i
    simp [Maker.make, onLobattoRoots, PyQuad.lobatto] at this
  set u : Fin (n + 2) → Fin 1 → ℂ := fun j _ => phase kappa j with hu
  have hres := wave_residual (scheme := .dg) ex trivial hh ha.le hq hs (fun _ => 1) 1 (.inl h10)
  simp only [one_mul] at hres
  obtain ⟨r, hr, hw⟩ := PyDG.weak_form (hc 1) (advection a) ((setColumn setups u).cells 1) (hb 1) (.coeff (u 1) rfl)
    (faceData (advection a) (setColumn setups u) 1)
  have hr0 : r 0 = M kappa 0 0 * phase kappa ((1 : Fin (n + 2)) : ℕ) := by
    change PyDG.residual (advection a) (setColumn setups u) 1 = _ at hres
    rw [PyDG.residual, hr] at hres
    rw [Option.some.inj hres]
    simp [Matrix.mulVec, dotProduct]
  have hw1 := hw 1 (by simp)
  rw [faces ha.le] at hw1
  set s := setups 1 with hsdef
  have hset : ((setColumn setups u).cells 1).setup = s := rfl
  rw [hset] at hw1
  have tw : Twin ((co (1 - 1)).xLeft - (co 1).xLeft) s (setups (1 - 1)) :=
    make_twin (by ring) (by have := hq.length 1; have := hq.length (1 - 1); linarith) (hq.made 1) (hq.made (1 - 1))
  have hrow : ∀ x, valueRow s x 0 = s.toTaylor 0 0 := by
    intro x
    rw [valueRow, sumR]
    simp [taylorValues, xPower]
  have hfield : ∀ (v : Fin 1 → ℂ) x, field s v x = s.toTaylor 0 0 • v 0 := by
    intro v x
    rw [field, value_row, sumC, hrow]
  have hend : endRow s false 0 = s.toTaylor 0 0 := by
    have h1 := boundary_row s (fun _ => 1) false
    rw [((value_derivatives (hc 1) (hb 1) (Reached.coeff (st := setCoeff s fun _ => (1 : ℂ)) _ rfl) 0).2 0).2.2.2.1,
      iteratedDeriv_zero, show s.value (setCoeff s fun _ => (1 : ℂ)) (co 1).xRight = _ from hfield _ _, sumC] at h1
    simpa using h1.symm
  have hc0 : s.toTaylor 0 0 ≠ 0 := by
    intro h0
    have := energy_pos (hc 1) (hb 1) (v := fun _ => 1) (by
      intro h
      have := congrFun h 0
      simp at this)
    rw [energy] at this
    have hz : ∀ x, s.value (setCoeff s fun _ => (1 : ℂ)) x = 0 := fun x => by
      rw [show s.value (setCoeff s fun _ => (1 : ℂ)) x = _ from hfield _ _, h0, zero_smul]
    rw [← hsdef] at this
    simp [hz, Integrator.integrate_eq] at this
  have hsum := integrate_derivative (hc 1) (hb 1) (fun hk => absurd hk (hnl 1)) X (.inr ⟨by simp, hnl 1⟩)
  simp only [derivative_X, eval_one, eval_X, hq.length, Integrator.integrate_eq, smul_eq_mul, mul_one] at hsum
  simp only [Integrator.integrate_eq, hfield, eval_one, one_smul, derivative_one, eval_zero, zero_smul, smul_zero,
    Finset.sum_const_zero, zero_add, add_zero, sub_zero, sumC, tw.endRow_eq, hend, hr0, hu, phase_pred kappa h10] at hw1
  rw [sumR] at hsum
  rw [← hsdef] at hsum
  rw [hsum] at hw1
  simp only [Complex.real_smul] at hw1
  have hcC : (s.toTaylor 0 0 : ℂ) ≠ 0 := by exact_mod_cast hc0
  have hhC : (h : ℂ) ≠ 0 := by exact_mod_cast hh.ne'
  have haC : (a : ℂ) ≠ 0 := by exact_mod_cast ha.ne'
  have hMk : (h : ℂ) * M kappa 0 0 = a * (Complex.exp (-(Complex.I * kappa)) - 1) := by
    have h3 : (s.toTaylor 0 0 : ℂ) * phase kappa ((1 : Fin (n + 2)) : ℕ) ≠ 0 := mul_ne_zero hcC (phase_ne _ _)
    refine mul_right_cancel₀ h3 ?_
    linear_combination hw1
  rw [hlen, Matrix.smul_apply, smul_eq_mul]
  have : Complex.I * (h : ℂ) / a * M kappa 0 0 = Complex.I * (Complex.exp (-(Complex.I * kappa)) - 1) := by
    rw [div_mul_eq_mul_div, div_eq_iff haC]
    linear_combination Complex.I * hMk
  rw [this, show -(Complex.I * (kappa : ℂ)) = ((-kappa : ℝ) : ℂ) * Complex.I by push_cast; ring, Complex.exp_mul_I]
  push_cast
  rw [Complex.cos_neg, Complex.sin_neg]
  linear_combination -Complex.sin kappa * Complex.I_sq

end MiniCFD.PyWave
