import Verif.Lemmas.PyFRSobolev
import Verif.Props.PyFRDG
import Verif.Props.PyEnergy
import Mathlib.Analysis.SpecialFunctions.Exponential

/-! # C126: flux reconstruction with the correction functions of Vincent is stable -/

namespace MiniCFD.PyFR
open MiniCFD.PyQuad MiniCFD.PyExpansion MiniCFD.PyDG Polynomial
open MiniCFD.PyEnergy (physics grid)
open MiniCFD.Spec.PyPoly (IsPair Orthogonal)
open MiniCFD.Spec.PyFR (PolyMap Interpolates)

variable {p n : ℕ} {c : Coordinate} {V : Type*} [NormedAddCommGroup V] [NormedSpace ℝ V]

/-- The weight of the `p`-th derivatives in the inner product that belongs to the ratio `mu`. -/
noncomputable def penalty (p : ℕ) (mu : ℝ) (c : Coordinate) : ℝ := elementWeight p mu c / (p.factorial : ℝ) ^ 2

/-- The weight is not negative for ratios up to one, which is the ratio of the discontinuous Galerkin scheme and has no weight. -/
theorem penalty_sign (hc : c.xLeft < c.xRight) (p : ℕ) {mu : ℝ} (h0 : 0 < mu) (h1 : mu ≤ 1) :
    0 ≤ penalty p mu c ∧ (1 ≤ p → (penalty p mu c = 0 ↔ mu = 1)) := by
  have hJ : 0 < (c.xRight - c.xLeft) / 2 := by linarith
  have hf : (0 : ℝ) < (p.factorial : ℝ) ^ 2 := by positivity
  have hw := weight_nonneg p h0 h1
  refine ⟨by unfold penalty elementWeight; positivity, fun hp => ⟨fun h => ?_, fun h => ?_⟩⟩
  · by_contra hne
    have := weight_pos hp h0 (lt_of_le_of_ne h1 hne)
    have : 0 < penalty p mu c := by unfold penalty elementWeight; positivity
    linarith
  · subst h
    simp [penalty, elementWeight, weight]

/-- The weak form: with the inner product of the penalty, flux reconstruction is the discontinuous Galerkin scheme for every ratio. -/
theorem weak_form_vincent [CompleteSpace V] (hc : c.xLeft < c.xRight) (ph : Physics V) (K : Cell p V) (h : Built c K.setup)
    (hk : K.setup.kind ≠ .modal) (hr : Reached K.setup K.state) {mu : ℕ → ℝ} {v : PyPoly.Vincent}
    (hv : PyPoly.vincent (p + 1) mu = some v) (hmu : mu p ≠ 0) (hp : 1 ≤ p ∨ mu 0 = 1) (hF : PolyMap p (dgFluxAt ph K))
    (f : FaceData V) {r : Fin (p + 1) → V} (hres : cellResidual ph (some (.vincent v)) K f = some r) (φ : ℝ[X])
    (hφ : φ.natDegree ≤ p) :
    (∫ x in c.xLeft..c.xRight, φ.eval x • field K.setup r x) +
        (penalty p (mu p) c * iteratedDeriv p (fun x => φ.eval x) 0) • iteratedDeriv p (field K.setup r) 0 =
      (∫ x in c.xLeft..c.xRight, (derivative φ).eval x • dgFluxAt ph K x) +
        φ.eval c.xLeft • f.leftFlux - φ.eval c.xRight • f.rightFlux := by
  have hp' : 1 ≤ p ∨ mu p = 1 := by
    rcases Nat.eq_zero_or_pos p with rfl | h1
    · exact hp
    · exact .inl h1
  have hg : IsPair (p + 1) (Correction.vincent v).value (Correction.vincent v).gradient :=
    PyPoly.vincent_pair_partial hv (hp.imp (by omega) id)
  obtain ⟨_, _, hveq⟩ := PyPoly.vincent_eq hv
  simp only [Nat.add_sub_cancel] at hveq
  obtain ⟨P⟩ := pair_exists hc hg
  have hR : ∀ x, P.R.eval x = (rightPoly p (mu p)).eval (c.globalToLocal x) := by
    intro x
    have := congrArg Prod.snd (P.value x)
    rw [rightPoly_eval _ hp', ← hveq]
    exact this.symm
  have hL : ∀ x, P.L.eval x = ((rightPoly p (mu p)).comp (-X)).eval (c.globalToLocal x) := by
    intro x
    have := congrArg Prod.fst (P.value x)
    rw [eval_comp, eval_neg, eval_X, rightPoly_eval _ hp', ← hveq]
    exact this.symm
  have mR := moment_global hc (rightPoly_degree p (mu p)) (right_moment (mu p) hmu hp') hR φ hφ
  have mL := moment_global hc (comp_neg_degree (rightPoly_degree p (mu p))) (left_moment (mu p) hmu hp') hL φ hφ
  choose q hq hval _ using basis_poly hc h
  set F := dgFluxAt ph K with hFdef
  have hI : Interpolates p K.setup.points F F := ⟨hF, fun _ => rfl⟩
  have hFx : ∀ x, F x = ∑ j, (q j).eval x • F (K.setup.points j) := by
    intro x
    conv_lhs => rw [interpolates_unique hc h hk hI]
    simp only [hval]
  obtain ⟨r', h', hd, _⟩ := reconstruction hc ph K h hk hr hg f hI
  rw [hres] at h'; cases h'
  set a := f.leftFlux - F c.xLeft with ha
  set b := f.rightFlux - F c.xRight with hb
  let T : Fin (p + 1) ⊕ Fin 2 → ℝ[X] := Sum.elim q ![P.L, P.R]
  let W : Fin (p + 1) ⊕ Fin 2 → V := Sum.elim (fun j => F (K.setup.points j)) ![a, b]
  have hT : ∀ k, (T k).natDegree ≤ p + 1 := by
    rintro (j | j)
    · exact (hq j).trans (by omega)
    · fin_cases j
      · exact P.degL
      · exact P.degR
  have hfield : field K.setup r = fun x => ∑ k, (-derivative (T k)).eval x • W k := by
    funext x
    have e : continuousFlux c (.vincent v) F F f.leftFlux f.rightFlux = fun y => ∑ k, (T k).eval y • W k := by
      funext y
      rw [Fintype.sum_sum_type, Fin.sum_univ_two]
      simp only [T, W, Sum.elim_inl, Sum.elim_inr, Matrix.cons_val_zero, Matrix.cons_val_one, continuousFlux, P.value, ← ha, ← hb]
      rw [← hFx]
      abel
    have h1 := e ▸ hd x
    have h2 : HasDerivAt (fun y => ∑ k, (T k).eval y • W k) (∑ k, (derivative (T k)).eval x • W k) x :=
      HasDerivAt.fun_sum fun k _ => ((T k).hasDerivAt x).smul_const _
    have := h1.unique h2
    simp only [eval_neg, neg_smul, Finset.sum_neg_distrib, ← this, neg_neg]
  have htop : iteratedDeriv p (field K.setup r) 0 = ∑ k, (-(p.factorial * (derivative (T k)).coeff p)) • W k := by
    rw [hfield, iteratedDeriv_comb]
    refine Finset.sum_congr rfl fun k _ => ?_
    rw [iterate_top _ (by
      rw [natDegree_neg]
      exact (natDegree_derivative_le _).trans (by have := hT k; omega)), coeff_neg, mul_neg]
  have htest : iteratedDeriv p (fun x => φ.eval x) 0 = p.factorial * φ.coeff p := by
    have := iteratedDeriv_comb (V := ℝ) (fun _ : Fin 1 => φ) (fun _ => 1) p
    simp only [Finset.univ_unique, Fin.default_eq_zero, smul_eq_mul, mul_one, Finset.sum_const, Finset.card_singleton, one_smul]
      at this
    rw [this]
    exact iterate_top φ hφ 0
  have hcont : ∀ (A B : ℝ[X]) (w : V), IntervalIntegrable (fun x => A.eval x • B.eval x • w) MeasureTheory.volume c.xLeft c.xRight :=
    fun A B w => Continuous.intervalIntegrable (A.continuous.smul (B.continuous.smul continuous_const)) _ _
  have hcomb : ∀ {ι : Type} [Fintype ι] (A : ℝ[X]) (B : ι → ℝ[X]) (w : ι → V),
      ∫ x in c.xLeft..c.xRight, A.eval x • ∑ k, (B k).eval x • w k =
        ∑ k, (∫ x in c.xLeft..c.xRight, (A * B k).eval x) • w k := by
    intro ι _ A B w
    simp only [Finset.smul_sum]
    rw [intervalIntegral.integral_finset_sum fun k _ => hcont A (B k) (w k)]
    refine Finset.sum_congr rfl fun k _ => ?_
    simp only [smul_smul, ← eval_mul]
    rw [intervalIntegral.integral_smul_const]
  have hparts : ∀ k, (∫ x in c.xLeft..c.xRight, (φ * -derivative (T k)).eval x) +
      penalty p (mu p) c * (p.factorial * φ.coeff p) * -(p.factorial * (derivative (T k)).coeff p) =
      (φ.eval c.xLeft * (T k).eval c.xLeft - φ.eval c.xRight * (T k).eval c.xRight) +
        ((∫ x in c.xLeft..c.xRight, (T k).eval x * (derivative φ).eval x) -
          elementWeight p (mu p) c * (φ.coeff p * (derivative (T k)).coeff p)) := by
    intro k
    have hbp := by_parts φ (T k) c.xLeft c.xRight
    have hn : ∫ x in c.xLeft..c.xRight, (φ * -derivative (T k)).eval x = -∫ x in c.xLeft..c.xRight, (φ * derivative (T k)).eval x := by
      rw [← intervalIntegral.integral_neg]
      congr 1
      funext x
      simp
    have hfac : (p.factorial : ℝ) ≠ 0 := by positivity
    rw [hn, hbp, penalty]
    field_simp
    ring
  have hzero : ∀ j, (derivative (q j)).coeff p = 0 := fun j => by
    rw [coeff_derivative, coeff_eq_zero_of_natDegree_lt (by have := hq j; omega), zero_mul]
  have hRHS : ∫ x in c.xLeft..c.xRight, (derivative φ).eval x • F x =
      ∑ j, (∫ x in c.xLeft..c.xRight, (q j).eval x * (derivative φ).eval x) • F (K.setup.points j) := by
    have : (fun x => (derivative φ).eval x • F x) = fun x => (derivative φ).eval x • ∑ j, (q j).eval x • F (K.setup.points j) := by
      funext x; rw [← hFx]
    rw [this, hcomb]
    refine Finset.sum_congr rfl fun j _ => ?_
    congr 2
    funext x
    rw [eval_mul, mul_comm]
  rw [htop, htest, hRHS]
  simp only [hfield]
  rw [hcomb φ (fun k => -derivative (T k)) W, Finset.smul_sum, ← Finset.sum_add_distrib]
  simp only [smul_smul, ← add_smul, hparts]
  rw [Fintype.sum_sum_type, Fin.sum_univ_two]
  simp only [T, W, Sum.elim_inl, Sum.elim_inr, Matrix.cons_val_zero, Matrix.cons_val_one, hzero, mul_zero, sub_zero, P.ll, P.lr, P.rl,
    P.rr, mul_one]
  unfold elementWeight
  rw [mL, mR]
  simp only [sub_self, add_zero, sub_zero, zero_sub]
  have e1 : ∑ j, (φ.eval c.xLeft * (q j).eval c.xLeft - φ.eval c.xRight * (q j).eval c.xRight) • F (K.setup.points j) =
      φ.eval c.xLeft • F c.xLeft - φ.eval c.xRight • F c.xRight := by
    rw [hFx c.xLeft, hFx c.xRight, Finset.smul_sum, Finset.smul_sum, ← Finset.sum_sub_distrib]
    refine Finset.sum_congr rfl fun j _ => ?_
    rw [sub_smul, mul_smul, mul_smul]
  simp only [add_smul, Finset.sum_add_distrib, e1, ha, hb, smul_sub, neg_smul]
  abel

/-! ### The energy of solutions -/

/-- The energy that belongs to the inner product: half the sum over the elements of the integral of the square and of the weighted
square of the `p`-th derivative. -/
noncomputable def energy (mu : ℝ) (co : Fin (n + 2) → Coordinate) (g : Grid p n ℝ) : ℝ :=
  ∑ i, ((∫ x in (co i).xLeft..(co i).xRight, (g.cells i).setup.value (g.cells i).state x ^ 2) +
    penalty p mu (co i) * iteratedDeriv p ((g.cells i).setup.value (g.cells i).state) 0 ^ 2) / 2

/-- Linear advection: the change of the energy is the sum over the faces of what the flux takes away. -/
theorem linear_balance {co : Fin (n + 2) → Coordinate} (hc : ∀ i, (co i).xLeft < (co i).xRight) (a : ℝ) (g : Grid p n ℝ)
    (hg : g.boundary = none) (hvis : ∀ i, (g.cells i).viscosity = none) (hb : ∀ i, Built (co i) (g.cells i).setup)
    (hk : ∀ i, (g.cells i).setup.kind ≠ .modal) (hr : ∀ i, Reached (g.cells i).setup (g.cells i).state)
    {mu : ℕ → ℝ} {v : PyPoly.Vincent} (hv : PyPoly.vincent (p + 1) mu = some v) (hmu : mu p ≠ 0) (hp : 1 ≤ p ∨ mu 0 = 1)
    {r : Fin (n + 2) → Fin (p + 1) → ℝ}
    (hres : ∀ i, residual (physics (PyScalar.linearSolver a 0)) (some (.vincent v)) g i = some (r i)) :
    ∑ i, ((∫ x in (co i).xLeft..(co i).xRight, (g.cells i).setup.value (g.cells i).state x * field (g.cells i).setup (r i) x) +
        penalty p (mu p) (co i) * iteratedDeriv p ((g.cells i).setup.value (g.cells i).state) 0 *
          iteratedDeriv p (field (g.cells i).setup (r i)) 0) =
      -(|a| / 2) * ∑ i, (PyEnergy.atLeft co g i - PyEnergy.atRight co g (i - 1)) ^ 2 := by
  set ph := physics (PyScalar.linearSolver a 0) with hph
  have hconv : ∀ u, ph.convective u = a * u := fun u => rfl
  have hinv : ph.inviscid = true := by simp [hph, physics, PyScalar.linearSolver, PyScalar.linear]
  have hco : ∀ u, ph.coefficient u = 0 := fun u => rfl
  have hup : ∀ l r, (r - l) * ph.upwind l r - a * (r ^ 2 - l ^ 2) / 2 = -(|a| / 2) * (r - l) ^ 2 := by
    intro l r
    have : ph.upwind l r = if 0 ≤ a then a * l else a * r := by
      by_cases h : 0 ≤ a <;>
        simp [hph, physics, PyScalar.Solver.upwindFlux, PyScalar.Solver.getValue, PyScalar.linearSolver, PyScalar.linear, h]
    rw [this]
    split_ifs with h
    · rw [abs_of_nonneg h]; ring
    · rw [abs_of_neg (not_le.1 h)]; ring
  have hface : ∀ i, leftFace ph g i = (ph.upwind (PyEnergy.atRight co g (i - 1)) (PyEnergy.atLeft co g i), 0) := by
    intro i
    rw [PyEnergy.periodic_left ph g hg]
    have d0 := ((value_derivatives (hc (i - 1)) (hb (i - 1)) (hr (i - 1)) 0).2 0).2.2.2.1
    have d1 := ((value_derivatives (hc i) (hb i) (hr i) 0).2 0).2.2.1
    rw [iteratedDeriv_zero] at d0 d1
    unfold interface
    simp only [d0, d1, Cell.extra, hvis, hco, min_self, add_zero, if_true, sub_self]
    rfl
  have hcell : ∀ i, (∫ x in (co i).xLeft..(co i).xRight, (g.cells i).setup.value (g.cells i).state x * field (g.cells i).setup (r i) x) +
        penalty p (mu p) (co i) * iteratedDeriv p ((g.cells i).setup.value (g.cells i).state) 0 *
          iteratedDeriv p (field (g.cells i).setup (r i)) 0 =
      a * (PyEnergy.atRight co g i ^ 2 - PyEnergy.atLeft co g i ^ 2) / 2 + PyEnergy.atLeft co g i * (leftFace ph g i).1 -
        PyEnergy.atRight co g i * (leftFace ph g (i + 1)).1 := by
    intro i
    obtain ⟨U, hU, hval⟩ := PyEnergy.exists_poly (hc i) (hb i) (hr i)
    have hF := linear_flux (hc i) ph (g.cells i) (hb i) (hr i) (a • LinearMap.id) (fun u => rfl) hinv (hvis i)
    have hw := weak_form_vincent (hc i) ph (g.cells i) (hb i) (hk i) (hr i) hv hmu hp hF (faceData ph g i) (hres i) U hU
    simp only [smul_eq_mul] at hw
    simp only [PyEnergy.atLeft, PyEnergy.atRight, hval]
    rw [hw]
    have hflux : ∀ x, (derivative U).eval x * dgFluxAt ph (g.cells i) x = (derivative (C (a / 2) * U ^ 2)).eval x := by
      intro x
      rw [dgFluxAt_eq (hc i) ph _ (hb i) (hr i), hval, dgFlux, hvis, hinv, hconv]
      simp [derivative_pow]
      ring
    simp only [hflux]
    rw [intervalIntegral.integral_eq_sub_of_hasDerivAt (fun x _ => (C (a / 2) * U ^ 2).hasDerivAt x)
      ((derivative (C (a / 2) * U ^ 2)).continuous.intervalIntegrable _ _)]
    simp only [faceData, PyEnergy.periodic_right ph g hg, eval_mul, eval_C, eval_pow]
    ring
  simp only [hcell, hface, Finset.mul_sum, ← hup]
  have e : ∑ i, PyEnergy.atRight co g i * ph.upwind (PyEnergy.atRight co g (i + 1 - 1)) (PyEnergy.atLeft co g (i + 1)) =
      ∑ i, PyEnergy.atRight co g (i - 1) * ph.upwind (PyEnergy.atRight co g (i - 1)) (PyEnergy.atLeft co g i) := by
    rw [← PyEnergy.sum_shift fun i => PyEnergy.atRight co g i * ph.upwind (PyEnergy.atRight co g (i + 1 - 1)) (PyEnergy.atLeft co g (i + 1))]
    simp only [sub_add_cancel]
  have e2 := PyEnergy.sum_shift fun i => a * PyEnergy.atRight co g i ^ 2 / 2
  rw [Finset.sum_sub_distrib, e, ← Finset.sum_sub_distrib]
  have e3 : ∑ i, (a * (PyEnergy.atRight co g i ^ 2 - PyEnergy.atLeft co g i ^ 2) / 2) =
      ∑ i, (a * (PyEnergy.atRight co g (i - 1) ^ 2 - PyEnergy.atLeft co g i ^ 2) / 2) := by
    simp only [mul_sub, sub_div, Finset.sum_sub_distrib, e2]
  simp only [add_sub_assoc] 
  rw [Finset.sum_add_distrib, e3, ← Finset.sum_add_distrib]
  refine Finset.sum_congr rfl fun i _ => ?_
  ring

/-- The energy along a solution of the semi-discrete system. -/
theorem energy_derivative (mu : ℝ) {co : Fin (n + 2) → Coordinate} (hc : ∀ i, (co i).xLeft < (co i).xRight)
    (setup : Fin (n + 2) → Setup p) (hb : ∀ i, Built (co i) (setup i))
    (u : ℝ → Fin (n + 2) → Fin (p + 1) → ℝ) (r : Fin (n + 2) → Fin (p + 1) → ℝ) (t : ℝ)
    (hu : ∀ i k, HasDerivAt (fun t => u t i k) (r i k) t) :
    HasDerivAt (fun t => energy mu co (grid setup (u t)))
      (∑ i, ((∫ x in (co i).xLeft..(co i).xRight, (setup i).value (setCoeff (setup i) (u t i)) x * field (setup i) (r i) x) +
        penalty p mu (co i) * iteratedDeriv p ((setup i).value (setCoeff (setup i) (u t i))) 0 *
          iteratedDeriv p (field (setup i) (r i)) 0)) t := by
  unfold energy
  refine HasDerivAt.fun_sum fun i _ => ?_
  choose q hq hval _ using basis_poly (hc i) (hb i)
  have hv : ∀ a : Fin (p + 1) → ℝ, (setup i).value (setCoeff (setup i) a) = fun x => ∑ k, (q k).eval x • a k := fun a =>
    funext fun x => by
      rw [show (setup i).value (setCoeff (setup i) a) x = _ from field_eq (hc i) (hb i) a x]
      simp only [hval]
  have hf : ∀ a : Fin (p + 1) → ℝ, field (setup i) a = fun x => ∑ k, (q k).eval x • a k := hv
  let B : (Fin (p + 1) → ℝ) → (Fin (p + 1) → ℝ) → ℝ := fun a b =>
    ∑ k, ∑ l, a k * b l * ∫ x in (co i).xLeft..(co i).xRight, (q k * q l).eval x
  have hint : ∀ a b : Fin (p + 1) → ℝ, ∫ x in (co i).xLeft..(co i).xRight, (∑ k, (q k).eval x • a k) * ∑ k, (q k).eval x • b k =
      B a b := by
    intro a b
    simp only [B, Finset.sum_mul_sum, smul_eq_mul]
    rw [intervalIntegral.integral_finset_sum fun k _ => Continuous.intervalIntegrable (by fun_prop) _ _]
    refine Finset.sum_congr rfl fun k _ => ?_
    rw [intervalIntegral.integral_finset_sum fun k _ => Continuous.intervalIntegrable (by fun_prop) _ _]
    refine Finset.sum_congr rfl fun l _ => ?_
    rw [← intervalIntegral.integral_const_mul]
    congr 1
    funext x
    rw [eval_mul]
    ring
  let D : (Fin (p + 1) → ℝ) → ℝ := fun a => ∑ k, (derivative^[p] (q k)).eval 0 * a k
  have hD : ∀ a : Fin (p + 1) → ℝ, iteratedDeriv p (fun x => ∑ k, (q k).eval x • a k) 0 = D a := by
    intro a
    rw [iteratedDeriv_comb]
    rfl
  simp only [grid, hv, hf, hD, sq, hint]
  have hBd : HasDerivAt (fun t => B (u t i) (u t i)) (∑ k, ∑ l, (r i k * u t i l + u t i k * r i l) *
      ∫ x in (co i).xLeft..(co i).xRight, (q k * q l).eval x) t :=
    HasDerivAt.fun_sum fun k _ => HasDerivAt.fun_sum fun l _ => ((hu i k).mul (hu i l)).mul_const _
  have hDd : HasDerivAt (fun t => D (u t i)) (D (r i)) t := HasDerivAt.fun_sum fun k _ => (hu i k).const_mul _
  refine ((hBd.add ((hDd.mul hDd).const_mul _)).div_const 2).congr_deriv ?_
  have hsym : ∑ k, ∑ l, (r i k * u t i l + u t i k * r i l) * (∫ x in (co i).xLeft..(co i).xRight, (q k * q l).eval x) =
      2 * B (u t i) (r i) := by
    simp only [add_mul, Finset.sum_add_distrib]
    rw [Finset.sum_comm (f := fun k l => r i k * u t i l * _)]
    have : ∀ k l, (∫ x in (co i).xLeft..(co i).xRight, (q k * q l).eval x) =
        ∫ x in (co i).xLeft..(co i).xRight, (q l * q k).eval x := fun k l => by rw [mul_comm]
    rw [two_mul]
    congr 1
    refine Finset.sum_congr rfl fun k _ => Finset.sum_congr rfl fun l _ => ?_
    rw [this l k]
    ring
  rw [hsym]
  ring

/-- Linear advection with a ratio between zero and one, every degree and every kind of nodes: the energy of every solution of the
semi-discrete system decreases. -/
theorem linear_stable {co : Fin (n + 2) → Coordinate} (hc : ∀ i, (co i).xLeft < (co i).xRight) (a : ℝ)
    (setup : Fin (n + 2) → Setup p) (hb : ∀ i, Built (co i) (setup i)) (hk : ∀ i, (setup i).kind ≠ .modal)
    {mu : ℕ → ℝ} {v : PyPoly.Vincent} (hv : PyPoly.vincent (p + 1) mu = some v) (hmu : mu p ≠ 0) (hp : 1 ≤ p ∨ mu 0 = 1)
    (u r : ℝ → Fin (n + 2) → Fin (p + 1) → ℝ)
    (hres : ∀ t i, residual (physics (PyScalar.linearSolver a 0)) (some (.vincent v)) (grid setup (u t)) i = some (r t i))
    (hu : ∀ t i k, HasDerivAt (fun t => u t i k) (r t i k) t) :
    Antitone fun t => energy (mu p) co (grid setup (u t)) := by
  have hder := fun t => energy_derivative (mu p) hc setup hb u (r t) t (hu t)
  refine antitone_of_deriv_nonpos (fun t => (hder t).differentiableAt) fun t => ?_
  rw [(hder t).deriv]
  have := linear_balance hc a (grid setup (u t)) rfl (fun i => rfl) hb hk (fun i => .coeff (u t i) rfl) hv hmu hp (hres t)
  refine (le_of_eq this).trans (mul_nonpos_of_nonpos_of_nonneg (by have := abs_nonneg a; linarith)
    (Finset.sum_nonneg fun i _ => sq_nonneg _))

/-- Hence the solution stays bounded in the mean square, by what it was at the start. -/
theorem linear_bounded {co : Fin (n + 2) → Coordinate} (hc : ∀ i, (co i).xLeft < (co i).xRight) (a : ℝ)
    (setup : Fin (n + 2) → Setup p) (hb : ∀ i, Built (co i) (setup i)) (hk : ∀ i, (setup i).kind ≠ .modal)
    {mu : ℕ → ℝ} {v : PyPoly.Vincent} (hv : PyPoly.vincent (p + 1) mu = some v) (h0 : 0 < mu p) (h1 : mu p ≤ 1)
    (hp : 1 ≤ p ∨ mu 0 = 1) (u r : ℝ → Fin (n + 2) → Fin (p + 1) → ℝ)
    (hres : ∀ t i, residual (physics (PyScalar.linearSolver a 0)) (some (.vincent v)) (grid setup (u t)) i = some (r t i))
    (hu : ∀ t i k, HasDerivAt (fun t => u t i k) (r t i k) t) {t0 t : ℝ} (ht : t0 ≤ t) :
    ∑ i, (∫ x in (co i).xLeft..(co i).xRight, (setup i).value (setCoeff (setup i) (u t i)) x ^ 2) / 2 ≤
      energy (mu p) co (grid setup (u t0)) := by
  refine le_trans (Finset.sum_le_sum fun i _ => ?_) (linear_stable hc a setup hb hk hv h0.ne' hp u r hres hu ht)
  have := mul_nonneg (penalty_sign (hc i) p h0 h1).1 (sq_nonneg (iteratedDeriv p ((setup i).value (setCoeff (setup i) (u t i))) 0))
  change _ ≤ ((∫ x in (co i).xLeft..(co i).xRight, (setup i).value (setCoeff (setup i) (u t i)) x ^ 2) +
    penalty p (mu p) (co i) * iteratedDeriv p ((setup i).value (setCoeff (setup i) (u t i))) 0 ^ 2) / 2
  linarith

/-- The residual of linear advection is defined and linear in the coefficients. -/
theorem linear_system {co : Fin (n + 2) → Coordinate} (hc : ∀ i, (co i).xLeft < (co i).xRight) (a : ℝ)
    (setup : Fin (n + 2) → Setup p) (hb : ∀ i, Built (co i) (setup i)) (hk : ∀ i, (setup i).kind ≠ .modal) {g : Correction}
    (hg : IsPair (p + 1) g.value g.gradient) :
    ∃ A : (Fin (n + 2) → Fin (p + 1) → ℝ) →ₗ[ℝ] (Fin (n + 2) → Fin (p + 1) → ℝ),
      ∀ u i, residual (physics (PyScalar.linearSolver a 0)) (some g) (grid setup u) i = some (A u i) := by
  set ph := physics (PyScalar.linearSolver a 0) with hph
  have hinv : ph.inviscid = true := by simp [hph, physics, PyScalar.linearSolver, PyScalar.linear]
  have hup : ∀ l r, ph.upwind l r = if 0 ≤ a then a * l else a * r := by
    intro l r
    by_cases h : 0 ≤ a <;>
      simp [hph, physics, PyScalar.Solver.upwindFlux, PyScalar.Solver.getValue, PyScalar.linearSolver, PyScalar.linear, h]
  let val : (Fin (n + 2) → Fin (p + 1) → ℝ) → Fin (n + 2) → ℝ → ℝ := fun u i x => ∑ j, (setup i).basisValues x j * u i j
  let face : (Fin (n + 2) → Fin (p + 1) → ℝ) → Fin (n + 2) → ℝ := fun u i =>
    if 0 ≤ a then a * val u (i - 1) (co (i - 1)).xRight else a * val u i (co i).xLeft
  let R : (Fin (n + 2) → Fin (p + 1) → ℝ) → Fin (n + 2) → Fin (p + 1) → ℝ := fun u i k =>
    -((∑ j, (setup i).basisGradients ((setup i).points k) j * (a * val u i ((setup i).points j))) +
      (correctionGradients g (setup i) ((setup i).points k)).1 * (face u i - a * val u i (co i).xLeft) +
      (correctionGradients g (setup i) ((setup i).points k)).2 * (face u (i + 1) - a * val u i (co i).xRight))
  have hval : ∀ u i x, (setup i).value (setCoeff (setup i) (u i)) x = val u i x := fun u i x =>
    field_eq (hc i) (hb i) (u i) x
  have hflux : ∀ u i x, dgFluxAt ph ((grid setup u).cells i) x = a * val u i x := by
    intro u i x
    rw [dgFluxAt_eq (hc i) ph _ (hb i) (.coeff (u i) rfl), dgFlux, hinv, ← hval]
    simp [grid]
    rfl
  have hface : ∀ u i, leftFace ph (grid setup u) i = (face u i, 0) := by
    intro u i
    rw [PyEnergy.periodic_left ph _ rfl]
    have d0 := ((value_derivatives (hc (i - 1)) (hb (i - 1)) (.coeff (st := setCoeff (setup (i - 1)) (u (i - 1))) (u (i - 1)) rfl) 0).2 0).2.2.2.1
    have d1 := ((value_derivatives (hc i) (hb i) (.coeff (st := setCoeff (setup i) (u i)) (u i) rfl) 0).2 0).2.2.1
    rw [iteratedDeriv_zero] at d0 d1
    have hco : ∀ u, ph.coefficient u = 0 := fun u => rfl
    unfold interface
    simp only [grid, d0, d1, Cell.extra, hco, min_self, add_zero, if_true, sub_self, hval, hup]
    rfl
  have hR : ∀ u i, residual ph (some g) (grid setup u) i = some (R u i) := by
    intro u i
    have hF := linear_flux (hc i) ph ((grid setup u).cells i) (hb i) (.coeff (u i) rfl) (a • LinearMap.id) (fun u => rfl) hinv rfl
    obtain ⟨r, hr, _, hr'⟩ := reconstruction (hc i) ph ((grid setup u).cells i) (hb i) (hk i) (.coeff (u i) rfl) hg
      (faceData ph (grid setup u) i) ⟨hF, fun _ => rfl⟩
    rw [residual, hr]
    congr 1
    funext k
    rw [hr']
    have hco := ((hb i).sane (hc i)).2
    have hset : ((grid setup u).cells i).setup = setup i := rfl
    have hnode : ∀ j, nodeFlux ph ((grid setup u).cells i) j = a * val u i ((setup i).points j) := fun j => by
      rw [nodeFlux_eq (hc i) ph _ (hb i) (hk i) (.coeff (u i) rfl), hflux, hset]
    simp only [frFluxGradient, dgFluxGradient, hset, hnode, hflux, faceData, PyEnergy.periodic_right ph (grid setup u) rfl, hface, hco, R,
      smul_eq_mul]
  have hadd : ∀ u w i x, val (u + w) i x = val u i x + val w i x := fun u w i x => by
    simp only [val, Pi.add_apply, mul_add, Finset.sum_add_distrib]
  have hsmul : ∀ (s : ℝ) u i x, val (s • u) i x = s * val u i x := fun s u i x => by
    simp only [val, Pi.smul_apply, smul_eq_mul, Finset.mul_sum]
    exact Finset.sum_congr rfl fun j _ => by ring
  have fadd : ∀ u w i, face (u + w) i = face u i + face w i := fun u w i => by
    simp only [face, hadd]
    split_ifs <;> ring
  have fsmul : ∀ (s : ℝ) u i, face (s • u) i = s * face u i := fun s u i => by
    simp only [face, hsmul]
    split_ifs <;> ring
  refine ⟨
    { toFun := R
      map_add' := fun u w => by
        funext i k
        simp only [R, hadd, fadd, mul_add, Finset.sum_add_distrib, Pi.add_apply]
        ring
      map_smul' := fun s u => by
        funext i k
        simp only [R, hsmul, fsmul, RingHom.id_apply, Pi.smul_apply, smul_eq_mul]
        have : ∑ j, (setup i).basisGradients ((setup i).points k) j * (a * (s * val u i ((setup i).points j))) =
            s * ∑ j, (setup i).basisGradients ((setup i).points k) j * (a * val u i ((setup i).points j)) := by
          rw [Finset.mul_sum]
          exact Finset.sum_congr rfl fun j _ => by ring
        rw [this]
        ring }, hR⟩

/-- The semi-discrete system of linear advection has a solution with every initial values. -/
theorem linear_solution {co : Fin (n + 2) → Coordinate} (hc : ∀ i, (co i).xLeft < (co i).xRight) (a : ℝ)
    (setup : Fin (n + 2) → Setup p) (hb : ∀ i, Built (co i) (setup i)) (hk : ∀ i, (setup i).kind ≠ .modal) {g : Correction}
    (hg : IsPair (p + 1) g.value g.gradient) (u0 : Fin (n + 2) → Fin (p + 1) → ℝ) :
    ∃ u r : ℝ → Fin (n + 2) → Fin (p + 1) → ℝ, u 0 = u0 ∧
      (∀ t i, residual (physics (PyScalar.linearSolver a 0)) (some g) (grid setup (u t)) i = some (r t i)) ∧
      ∀ t i k, HasDerivAt (fun t => u t i k) (r t i k) t := by
  obtain ⟨A, hR⟩ := linear_system hc a setup hb hk hg
  let B : (Fin (n + 2) → Fin (p + 1) → ℝ) →L[ℝ] (Fin (n + 2) → Fin (p + 1) → ℝ) := LinearMap.toContinuousLinearMap A
  refine ⟨fun t => NormedSpace.exp (t • B) u0, fun t => A (NormedSpace.exp (t • B) u0), ?_, fun t i => hR _ i, fun t i k => ?_⟩
  · simp [NormedSpace.exp_zero]
  · have h1 : HasDerivAt (fun t : ℝ => NormedSpace.exp (t • B)) (B * NormedSpace.exp (t • B)) t := hasDerivAt_exp_smul_const' B t
    have h2 : HasDerivAt (fun t : ℝ => NormedSpace.exp (t • B) u0) ((B * NormedSpace.exp (t • B)) u0) t := by
      have := h1.clm_apply (hasDerivAt_const t u0)
      simpa using this
    exact hasDerivAt_pi.1 (hasDerivAt_pi.1 h2 i) k

/-- The ratios that the code names. -/
theorem named_ratios (p : ℕ) : (0 < PyPoly.muGalerkin p ∧ PyPoly.muGalerkin p ≤ 1) ∧
    (0 < PyPoly.muDifference p ∧ PyPoly.muDifference p ≤ 1 ∧ PyPoly.muDifference 0 = 1) ∧
    (1 ≤ p → 0 < PyPoly.muLobatto p ∧ PyPoly.muLobatto p ≤ 1) := by
  have h : (0 : ℝ) ≤ p := by positivity
  refine ⟨by simp [PyPoly.muGalerkin], ⟨by unfold PyPoly.muDifference; positivity, ?_, by simp [PyPoly.muDifference]⟩, fun hp => ⟨?_, ?_⟩⟩
  · rw [PyPoly.muDifference, div_le_one (by positivity)]; linarith
  · have : (0 : ℝ) < p := by exact_mod_cast hp
    unfold PyPoly.muLobatto; positivity
  · rw [PyPoly.muLobatto, div_le_one (by positivity)]; linarith

/-- Two elements with two points each, the default ratio: a solution from every initial values, with an energy that decreases. -/
example (u0 : Fin 2 → Fin 2 → ℝ) : ∃ (setup : Fin 2 → Setup 1) (v : PyPoly.Vincent) (u r : ℝ → Fin 2 → Fin 2 → ℝ),
    PyPoly.vincent 2 PyPoly.muLobatto = some v ∧ u 0 = u0 ∧
    (∀ t i, residual (physics (PyScalar.linearSolver 1 0)) (some (.vincent v)) (grid setup (u t)) i = some (r t i)) ∧
    Antitone fun t => energy (PyPoly.muLobatto 1) pair (grid setup (u t)) := by
  choose s hs using fun i => (constructors (pair_pos i) gauss2_exact).2.1
  have hb : ∀ i, Built (pair i) (s i) := fun i => .legendreRoots _ gauss2_exact (hs i)
  have hk : ∀ i, (s i).kind ≠ .modal := fun i => by
    rw [(lagrange_sane (by simp) (pair_pos i) (hs i)).2.2.1]; simp
  obtain ⟨v, hv⟩ : ∃ v, PyPoly.vincent (1 + 1) PyPoly.muLobatto = some v := ⟨_, rfl⟩
  obtain ⟨u, r, h0, h1, h2⟩ := linear_solution pair_pos 1 s hb hk (g := .vincent v)
    (PyPoly.vincent_pair_partial hv (.inl (by norm_num))) u0
  exact ⟨s, v, u, r, hv, h0, h1, linear_stable pair_pos 1 s hb hk hv ((named_ratios 1).2.2 le_rfl).1.ne' (.inl le_rfl) u r h1 h2⟩

end MiniCFD.PyFR
