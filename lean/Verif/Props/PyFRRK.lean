import Verif.Props.PyFRStable
import Verif.Props.PyEnergyRK

/-! # C146: flux reconstruction stepped by the Runge-Kutta scheme of third order is stable -/

namespace MiniCFD.PyFRRK
open MiniCFD.PyQuad MiniCFD.PyExpansion MiniCFD.PyDG MiniCFD.PyFR MiniCFD.PyRK Polynomial
open MiniCFD.RK (Sys)
open MiniCFD.PyEnergy (physics grid exists_poly gauss4_exact)
open MiniCFD.PyEnergyRK (form_bounded field_linear Joined)

variable {p n : ℕ} {c : Coordinate}

/-- Systems that do not gain energy do not gain it in short steps of third order either. -/
theorem third_contracts {V : Type*} [NormedAddCommGroup V] [NormedSpace ℝ V] [FiniteDimensional ℝ V]
    (B : V →ₗ[ℝ] V →ₗ[ℝ] ℝ) (hs : ∀ u v, B u v = B v u) (hp : ∀ u, u ≠ 0 → 0 < B u u) (L : V →ₗ[ℝ] V)
    (hL : ∀ u, B u (L u) ≤ 0) : ∃ dt0 : ℝ, 0 < dt0 ∧ ∀ dts : List ℝ, (∀ dt ∈ dts, 0 ≤ dt ∧ dt ≤ dt0) →
      ∀ (t : ℝ) (s s' : Sys ℝ V), march 3 id (RK.constant L) dts t s = some s' → B s'.sol s'.sol ≤ B s.sol s.sol := by
  have hp0 : ∀ u, 0 ≤ B u u := fun u => by
    by_cases h : u = 0
    · rw [h]; simp
    · exact (hp u h).le
  have hcont : Continuous fun u => B u u := by
    let e := Module.finBasis ℝ V
    have h : (fun u => B u u) = fun u => ∑ i, e.coord i u * B (e i) u := by
      funext u
      have h1 : B u = ∑ i, e.repr u i • B (e i) := by
        conv_lhs => rw [← e.sum_repr u, map_sum]
        exact Finset.sum_congr rfl fun i _ => by rw [map_smul]
      have h2 := congrArg (fun f : V →ₗ[ℝ] ℝ => f u) h1
      simp only [LinearMap.sum_apply, LinearMap.smul_apply, smul_eq_mul] at h2
      exact h2
    rw [h]
    refine continuous_finsetSum _ fun i _ => ?_
    exact (LinearMap.continuous_of_finiteDimensional _).mul (LinearMap.continuous_of_finiteDimensional _)
  have h2 : ∀ (c : ℝ) u, B (c • u) (c • u) = c ^ 2 * B u u := by
    intro c u
    simp only [map_smul, LinearMap.smul_apply, smul_eq_mul]; ring
  obtain ⟨M, hM0, hM⟩ := form_bounded (f := fun u => B (L u) (L u)) (g := fun u => B u u)
    (hcont.comp L.continuous_of_finiteDimensional) hcont (fun c u => by rw [map_smul, h2]) h2 hp
  have hq : 0 < √(M + 1) := Real.sqrt_pos.2 (by linarith)
  refine ⟨1 / √(M + 1), by positivity, ?_⟩
  intro dts
  induction dts with
  | nil => intro _ t s s' h; cases h; exact le_rfl
  | cons dt dts ih =>
    intro hdt t s s' h
    obtain ⟨s1, h1, h3⟩ := Option.bind_eq_some_iff.1 h
    refine (ih (fun d hd => hdt d (List.mem_cons_of_mem _ hd)) _ _ _ h3).trans ?_
    obtain ⟨d0, d1⟩ := hdt dt List.mem_cons_self
    have hstep : s1.sol = Energy.cubic L dt s.sol := by
      rw [linear_step L h1]
      simp only [Spec.RK.expSeries, Finset.sum_range_succ, Finset.sum_range_zero, Nat.factorial, Energy.cubic, pow_zero,
        pow_succ, Module.End.mul_apply, Module.End.one_apply, one_mul]
      push_cast
      match_scalars <;> ring
    have hd2 : dt ^ 2 * M ≤ 1 := by
      have : dt * √(M + 1) ≤ 1 := (le_div_iff₀ hq).1 d1
      have h3 : (dt * √(M + 1)) ^ 2 ≤ 1 := pow_le_one₀ (by positivity) this
      rw [mul_pow, Real.sq_sqrt (by linarith)] at h3
      nlinarith [sq_nonneg dt]
    rw [hstep]
    refine Energy.cubic_contracts B hs hp0 L hL d0 (fun u => ?_) s.sol
    calc dt ^ 2 * B (L u) (L u) ≤ dt ^ 2 * (M * B u u) := mul_le_mul_of_nonneg_left (hM u) (sq_nonneg _)
      _ = dt ^ 2 * M * B u u := by ring
      _ ≤ 1 * B u u := mul_le_mul_of_nonneg_right hd2 (hp0 u)
      _ = _ := one_mul _

/-! ### The inner product that belongs to a ratio -/

/-- Spec: the inner product of two polynomials on one element, the integral with the penalty of C126. -/
noncomputable def cellForm (mu : ℝ) (c : Coordinate) (s : Setup p) (u v : Fin (p + 1) → ℝ) : ℝ :=
  (∫ x in c.xLeft..c.xRight, field s u x * field s v x) +
    penalty p mu c * iteratedDeriv p (field s u) 0 * iteratedDeriv p (field s v) 0

/-- Spec: the sum over the elements. -/
noncomputable def form (mu : ℝ) (co : Fin (n + 2) → Coordinate) (setup : Fin (n + 2) → Setup p)
    (u v : Fin (n + 2) → Fin (p + 1) → ℝ) : ℝ := ∑ i, cellForm mu (co i) (setup i) (u i) (v i)

theorem energy_form (mu : ℝ) (co : Fin (n + 2) → Coordinate) (setup : Fin (n + 2) → Setup p)
    (u : Fin (n + 2) → Fin (p + 1) → ℝ) : PyFR.energy mu co (grid setup u) = form mu co setup u u / 2 := by
  rw [PyFR.energy, form, Finset.sum_div]
  refine Finset.sum_congr rfl fun i _ => ?_
  simp only [cellForm, pow_two, ← mul_assoc]; rfl

theorem cell_symm (mu : ℝ) (c : Coordinate) (s : Setup p) (u v : Fin (p + 1) → ℝ) :
    cellForm mu c s u v = cellForm mu c s v u := by
  unfold cellForm
  simp only [mul_comm (field s u _)]
  ring

theorem cell_linear (mu : ℝ) (hc : c.xLeft < c.xRight) {s : Setup p} (h : Built c s) (k : ℝ) (u v w : Fin (p + 1) → ℝ) :
    cellForm mu c s (k • u + v) w = k * cellForm mu c s u w + cellForm mu c s v w := by
  have poly : ∀ w : Fin (p + 1) → ℝ, ∃ U : ℝ[X], field s w = fun x => U.eval x := fun w => by
    obtain ⟨U, _, hU⟩ := exists_poly hc h (st := setCoeff s w) (.coeff w rfl)
    exact ⟨U, hU⟩
  obtain ⟨U, hU⟩ := poly u
  obtain ⟨W, hW⟩ := poly v
  obtain ⟨Z, hZ⟩ := poly w
  have e : field s (k • u + v) = fun x => (C k * U + W).eval x := by
    funext x
    rw [field_linear, hU, hW]; simp
  have hd : iteratedDeriv p (fun x => (C k * U + W).eval x) 0 =
      k * iteratedDeriv p (fun x => U.eval x) 0 + iteratedDeriv p (fun x => W.eval x) 0 := by
    have htop : ∀ φ : ℝ[X], iteratedDeriv p (fun x => φ.eval x) 0 = (derivative^[p] φ).eval 0 := by
      intro φ
      have h1 := iteratedDeriv_comb (V := ℝ) (fun _ : Fin 1 => φ) (fun _ => 1) p
      simp only [Finset.univ_unique, Fin.default_eq_zero, smul_eq_mul, mul_one, Finset.sum_const, Finset.card_singleton,
        one_smul] at h1
      rw [h1]
    rw [htop, htop, htop, iterate_map_add, iterate_derivative_C_mul, eval_add, eval_mul, eval_C]
  unfold cellForm
  rw [e, hU, hW, hZ, hd]
  have hi : ∫ x in c.xLeft..c.xRight, (C k * U + W).eval x * Z.eval x =
      k * (∫ x in c.xLeft..c.xRight, U.eval x * Z.eval x) + ∫ x in c.xLeft..c.xRight, W.eval x * Z.eval x := by
    rw [← intervalIntegral.integral_const_mul, ← intervalIntegral.integral_add]
    · congr 1; funext x; simp only [eval_add, eval_mul, eval_C]; ring
    · exact Continuous.intervalIntegrable (by fun_prop) _ _
    · exact Continuous.intervalIntegrable (by fun_prop) _ _
  rw [hi]; ring

theorem cell_definite {mu : ℝ} (h0 : 0 < mu) (h1 : mu ≤ 1) (hc : c.xLeft < c.xRight) {s : Setup p} (h : Built c s)
    (w : Fin (p + 1) → ℝ) : 0 ≤ cellForm mu c s w w ∧ (cellForm mu c s w w = 0 → w = 0) := by
  obtain ⟨U, _, hv⟩ := exists_poly hc h (st := setCoeff s w) (.coeff w rfl)
  have hf : ∀ x, field s w x = U.eval x := fun x => congrFun hv x
  have hpen : 0 ≤ penalty p mu c * iteratedDeriv p (field s w) 0 * iteratedDeriv p (field s w) 0 := by
    rw [mul_assoc]
    exact mul_nonneg (penalty_sign hc p h0 h1).1 (mul_self_nonneg _)
  have hint : 0 ≤ ∫ x in c.xLeft..c.xRight, field s w x * field s w x :=
    intervalIntegral.integral_nonneg hc.le fun x _ => mul_self_nonneg _
  refine ⟨add_nonneg hint hpen, fun hz => ?_⟩
  have hz' : ∫ x in c.xLeft..c.xRight, field s w x * field s w x = 0 := by
    unfold cellForm at hz
    linarith
  simp only [hf, ← pow_two] at hz'
  have hU0 : U = 0 := by
    by_contra hne
    exact (integral_sq_pos hc hne).ne' hz'
  refine basis_ne_zero hc h w fun x => ?_
  have := field_eq hc h w x
  rw [hf, hU0, eval_zero] at this
  rw [this]
  exact Finset.sum_congr rfl fun i _ => by rw [smul_eq_mul, mul_comm]

section
variable {co : Fin (n + 2) → Coordinate} (hc : ∀ i, (co i).xLeft < (co i).xRight) {setup : Fin (n + 2) → Setup p}
  (hb : ∀ i, Built (co i) (setup i))

include hc hb in
theorem form_linear (mu k : ℝ) (u v w : Fin (n + 2) → Fin (p + 1) → ℝ) :
    form mu co setup (k • u + v) w = k * form mu co setup u w + form mu co setup v w := by
  unfold form
  rw [Finset.mul_sum, ← Finset.sum_add_distrib]
  exact Finset.sum_congr rfl fun i _ => cell_linear mu (hc i) (hb i) k (u i) (v i) (w i)

theorem form_symm (mu : ℝ) (u v : Fin (n + 2) → Fin (p + 1) → ℝ) : form mu co setup u v = form mu co setup v u :=
  Finset.sum_congr rfl fun i _ => cell_symm mu (co i) (setup i) (u i) (v i)

include hc hb in
theorem exists_bilinear (mu : ℝ) : ∃ B : (Fin (n + 2) → Fin (p + 1) → ℝ) →ₗ[ℝ] (Fin (n + 2) → Fin (p + 1) → ℝ) →ₗ[ℝ] ℝ,
    ∀ u v, B u v = form mu co setup u v := by
  have hz : ∀ w, form mu co setup 0 w = 0 := fun w => by
    have := form_linear hc hb mu 1 0 0 w
    simp at this; exact this
  have hadd : ∀ u v w, form mu co setup (u + v) w = form mu co setup u w + form mu co setup v w := fun u v w => by
    simpa using form_linear hc hb mu 1 u v w
  have hsmul : ∀ (k : ℝ) u w, form mu co setup (k • u) w = k * form mu co setup u w := fun k u w => by
    have := form_linear hc hb mu k u 0 w
    simpa [hz] using this
  refine ⟨LinearMap.mk₂ ℝ (form mu co setup) hadd hsmul (fun w u v => ?_) (fun k w u => ?_), fun u v => rfl⟩
  · rw [form_symm mu w, hadd, form_symm mu u, form_symm mu v]
  · rw [form_symm mu w, hsmul, form_symm mu u]; rfl

end

/-- Third-order steps with the correction functions of Vincent: if the steps are short enough, runs of any length do not gain
energy, whatever the nodes and the degree. -/
theorem third_stable {co : Fin (n + 2) → Coordinate} (hc : ∀ i, (co i).xLeft < (co i).xRight) (a : ℝ)
    (setup : Fin (n + 2) → Setup p) (hb : ∀ i, Built (co i) (setup i)) (hk : ∀ i, (setup i).kind ≠ .modal)
    {mu : ℕ → ℝ} {v : PyPoly.Vincent} (hv : PyPoly.vincent (p + 1) mu = some v) (h0 : 0 < mu p) (h1 : mu p ≤ 1)
    (hp : 1 ≤ p ∨ mu 0 = 1)
    {R : ℝ → (Fin (n + 2) → Fin (p + 1) → ℝ) → Fin (n + 2) → Fin (p + 1) → ℝ}
    (hR : ∀ t u i, residual (physics (PyScalar.linearSolver a 0)) (some (.vincent v)) (grid setup u) i = some (R t u i)) :
    ∃ dt0 : ℝ, 0 < dt0 ∧ ∀ dts : List ℝ, (∀ dt ∈ dts, 0 ≤ dt ∧ dt ≤ dt0) → ∀ (t : ℝ) (s s' : Sys ℝ _),
      march 3 id R dts t s = some s' →
      PyFR.energy (mu p) co (grid setup s'.sol) ≤ PyFR.energy (mu p) co (grid setup s.sol) := by
  obtain ⟨L, hL⟩ := linear_system hc a setup hb hk (g := .vincent v)
    (PyPoly.vincent_pair_partial hv (hp.imp (by omega) id))
  have hRL : R = RK.constant L := by
    funext t u i
    exact Option.some.inj ((hR t u i).symm.trans (hL u i))
  obtain ⟨B, hB⟩ := exists_bilinear hc hb (mu p)
  have hpos : ∀ u : Fin (n + 2) → Fin (p + 1) → ℝ, u ≠ 0 → 0 < B u u := by
    intro u hu
    rw [hB]
    have hn : ∀ i ∈ Finset.univ, 0 ≤ cellForm (mu p) (co i) (setup i) (u i) (u i) := fun i _ =>
      (cell_definite h0 h1 (hc i) (hb i) (u i)).1
    refine (Finset.sum_nonneg hn).lt_of_ne fun hz => hu (funext fun i => ?_)
    exact (cell_definite h0 h1 (hc i) (hb i) (u i)).2 ((Finset.sum_eq_zero_iff_of_nonneg hn).1 hz.symm i (Finset.mem_univ i))
  have hneg : ∀ u, B u (L u) ≤ 0 := by
    intro u
    have := linear_balance hc a (grid setup u) rfl (fun i => rfl) hb hk (fun i => .coeff (u i) rfl) hv h0.ne' hp (hL u)
    rw [hB]
    refine (le_of_eq this).trans ?_
    have h2 : 0 ≤ ∑ i, (PyEnergy.atLeft co (grid setup u) i - PyEnergy.atRight co (grid setup u) (i - 1)) ^ 2 :=
      Finset.sum_nonneg fun i _ => sq_nonneg _
    have h3 : 0 ≤ |a| / 2 := by positivity
    nlinarith
  obtain ⟨dt0, hd, hrun⟩ := third_contracts B (fun u v => by rw [hB, hB, form_symm]) hpos L hneg
  refine ⟨dt0, hd, fun dts hdts t s s' h => ?_⟩
  rw [hRL] at h
  have := hrun dts hdts t s s' h
  rw [hB, hB] at this
  rw [energy_form, energy_form]
  linarith

/-! ### The lower orders -/

section lower
variable {co : Fin (n + 2) → Coordinate} (hc : ∀ i, (co i).xLeft < (co i).xRight) {a : ℝ} {setup : Fin (n + 2) → Setup p}
  (hb : ∀ i, Built (co i) (setup i)) (hk : ∀ i, (setup i).kind ≠ .modal) {mu : ℕ → ℝ} {v : PyPoly.Vincent}
  (hv : PyPoly.vincent (p + 1) mu = some v) (h0 : 0 < mu p) (h1 : mu p ≤ 1) (hp : 1 ≤ p ∨ mu 0 = 1)

include hc hb h0 h1 in
theorem form_definite {u : Fin (n + 2) → Fin (p + 1) → ℝ} (hu : u ≠ 0) : 0 < form (mu p) co setup u u := by
  have hn : ∀ i ∈ Finset.univ, 0 ≤ cellForm (mu p) (co i) (setup i) (u i) (u i) := fun i _ =>
    (cell_definite h0 h1 (hc i) (hb i) (u i)).1
  refine (Finset.sum_nonneg hn).lt_of_ne fun hz => hu (funext fun i => ?_)
  exact (cell_definite h0 h1 (hc i) (hb i) (u i)).2 ((Finset.sum_eq_zero_iff_of_nonneg hn).1 hz.symm i (Finset.mem_univ i))

variable {L : (Fin (n + 2) → Fin (p + 1) → ℝ) →ₗ[ℝ] (Fin (n + 2) → Fin (p + 1) → ℝ)}
  (hL : ∀ u i, residual (physics (PyScalar.linearSolver a 0)) (some (.vincent v)) (grid setup u) i = some (L u i))

include hc hb hk hv h0 hp hL in
/-- Continuous fields neither gain nor lose energy. -/
theorem joined_balance {u : Fin (n + 2) → Fin (p + 1) → ℝ} (hu : Joined co setup u) : form (mu p) co setup u (L u) = 0 := by
  have := linear_balance hc a (grid setup u) rfl (fun i => rfl) hb hk (fun i => .coeff (u i) rfl) hv h0.ne' hp (hL u)
  refine Eq.trans this ?_
  have hz : ∀ i, PyEnergy.atLeft co (grid setup u) i - PyEnergy.atRight co (grid setup u) (i - 1) = 0 := fun i =>
    sub_eq_zero.2 (hu i).symm
  simp [hz]

include hc hb hk hv hp hL in
/-- They are advected exactly. -/
theorem joined_residual {u : Fin (n + 2) → Fin (p + 1) → ℝ} (hu : Joined co setup u) (i : Fin (n + 2)) (x : ℝ) :
    field (setup i) (L u i) x = -a * deriv (field (setup i) (u i)) x := by
  have hface : ∀ i, leftFace (physics (PyScalar.linearSolver a 0)) (grid setup u) i =
      (a * field (setup i) (u i) (co i).xLeft, 0) := by
    intro i
    rw [PyEnergy.periodic_left _ _ rfl]
    have d0 := ((value_derivatives (hc (i - 1)) (hb (i - 1)) (.coeff (u (i - 1)) rfl) 0).2 0).2.2.2.1
    have d1 := ((value_derivatives (hc i) (hb i) (.coeff (u i) rfl) 0).2 0).2.2.1
    rw [iteratedDeriv_zero] at d0 d1
    have e := hu i
    simp only [interface, grid, Cell.extra, PyEnergyRK.upwind_eq]
    have hco : ∀ w, (physics (PyScalar.linearSolver a 0)).coefficient w = 0 := fun w => rfl
    simp only [hco, min_self, add_zero, if_true, sub_self]
    refine Prod.ext ?_ rfl
    show a * _ = a * _
    refine congrArg (a * ·) ?_
    split_ifs
    · exact d0.trans e
    · exact d1
  have hF : ∀ y, dgFluxAt (physics (PyScalar.linearSolver a 0)) ((grid setup u).cells i) y =
      a * field (setup i) (u i) y := by
    intro y
    simp [dgFluxAt, dgFlux, grid, physics, PyScalar.linearSolver, PyScalar.linear, field]
  have hnext : field (setup i) (u i) (co i).xRight = field (setup (i + 1)) (u (i + 1)) (co (i + 1)).xLeft := by
    have := hu (i + 1)
    rw [add_sub_cancel_right] at this
    exact this
  have hres := hL u i
  have hfd : faceData (physics (PyScalar.linearSolver a 0)) (grid setup u) i =
      ⟨dgFluxAt (physics (PyScalar.linearSolver a 0)) ((grid setup u).cells i) (co i).xLeft,
        dgFluxAt (physics (PyScalar.linearSolver a 0)) ((grid setup u).cells i) (co i).xRight, 0, 0⟩ := by
    rw [hF, hF, faceData, PyEnergy.periodic_right _ (grid setup u) rfl, hface, hface, hnext]
  rw [PyFR.residual, hfd] at hres
  have hinv : (physics (PyScalar.linearSolver a 0)).inviscid = true := by simp [physics, PyScalar.linearSolver, PyScalar.linear]
  have hpoly := linear_flux (hc i) (physics (PyScalar.linearSolver a 0)) ((grid setup u).cells i) (hb i) (.coeff (u i) rfl)
    (a • LinearMap.id) (fun u => rfl) hinv rfl
  have := PyFR.consistent (hc i) (physics (PyScalar.linearSolver a 0)) ((grid setup u).cells i) (hb i) (hk i)
    (.coeff (u i) rfl) (g := .vincent v) (PyPoly.vincent_pair_partial hv (hp.imp (by omega) id)) hpoly hres x
  obtain ⟨U, _, hU⟩ := exists_poly (hc i) (hb i) (st := setCoeff (setup i) (u i)) (.coeff (u i) rfl)
  have hd : HasDerivAt (dgFluxAt (physics (PyScalar.linearSolver a 0)) ((grid setup u).cells i)) (a * deriv (field (setup i) (u i)) x) x := by
    have h2 : HasDerivAt (field (setup i) (u i)) (deriv (field (setup i) (u i)) x) x := by
      have e : field (setup i) (u i) = fun x => U.eval x := hU
      rw [e, Polynomial.deriv]
      exact U.hasDerivAt x
    rw [show dgFluxAt (physics (PyScalar.linearSolver a 0)) ((grid setup u).cells i) = fun y => a * field (setup i) (u i) y from funext hF]
    exact h2.const_mul a
  have e := this.unique hd
  have e' : -field (setup i) (L u i) x = a * deriv (field (setup i) (u i)) x := e
  linarith

include hc hb hk hv h0 h1 hL in
/-- Steps of first order from degree 1 on and of second order from degree 2 on increase the energy of some fields, however
short they are. -/
theorem lower_gain (ha : a ≠ 0) {order : ℕ} (ho : order = 1 ∧ 1 ≤ p ∨ order = 2 ∧ 2 ≤ p) :
    ∃ u : Fin (n + 2) → Fin (p + 1) → ℝ, ∀ (t dt : ℝ) (s s' : Sys ℝ _), 0 < dt → s.sol = u →
      PyRK.update order id (RK.constant L) dt t s = some s' →
      PyFR.energy (mu p) co (grid setup s.sol) < PyFR.energy (mu p) co (grid setup s'.sol) := by
  have hp : 1 ≤ p := by omega
  obtain ⟨B, hB⟩ := exists_bilinear hc hb (mu p)
  have hsym : ∀ u v, B u v = B v u := fun u v => by rw [hB, hB, form_symm]
  have hdef : ∀ u, u ≠ 0 → 0 < B u u := fun u hu => by rw [hB]; exact form_definite hc hb h0 h1 hu
  have hbal : ∀ u, Joined co setup u → B u (L u) = 0 := fun u hu => by
    rw [hB]; exact joined_balance hc hb hk hv h0 (.inl hp) hL hu
  have hmv := fun u (hu : Joined co setup u) => joined_residual hc hb hk hv (.inl hp) hL hu
  rcases ho with ⟨rfl, h⟩ | ⟨rfl, h⟩
  · obtain ⟨u, hu⟩ := PyEnergyRK.euler_gains hc hb B hsym hdef L hbal hmv h ha
    refine ⟨u, fun t dt s s' hdt hs hup => ?_⟩
    have hstep : s'.sol = u + dt • L u := by
      rw [linear_step L hup, hs]
      simp only [Spec.RK.expSeries, Finset.sum_range_succ, Finset.sum_range_zero, Nat.factorial, pow_zero, pow_succ, one_mul,
        Module.End.one_apply]
      push_cast
      match_scalars <;> ring
    have := hu dt hdt
    rw [hB, hB] at this
    rw [energy_form, energy_form, hs, hstep]
    linarith
  · obtain ⟨u, hu⟩ := PyEnergyRK.heun_gains hc hb B hsym hdef L hbal hmv h ha
    refine ⟨u, fun t dt s s' hdt hs hup => ?_⟩
    have hstep : s'.sol = u + dt • L u + (dt ^ 2 / 2) • L (L u) := by
      rw [linear_step L hup, hs]
      simp only [Spec.RK.expSeries, Finset.sum_range_succ, Finset.sum_range_zero, Nat.factorial, pow_zero, pow_succ, one_mul,
        Module.End.one_apply, Module.End.mul_apply]
      push_cast
      match_scalars <;> ring
    have := hu dt hdt
    rw [hB, hB] at this
    rw [energy_form, energy_form, hs, hstep]
    linarith

end lower

/-- What users see: the squared values never integrate to more than twice the energy of the beginning, however long the run. -/
theorem third_bounded {co : Fin (n + 2) → Coordinate} (hc : ∀ i, (co i).xLeft < (co i).xRight) (a : ℝ)
    (setup : Fin (n + 2) → Setup p) (hb : ∀ i, Built (co i) (setup i)) (hk : ∀ i, (setup i).kind ≠ .modal)
    {mu : ℕ → ℝ} {v : PyPoly.Vincent} (hv : PyPoly.vincent (p + 1) mu = some v) (h0 : 0 < mu p) (h1 : mu p ≤ 1)
    (hp : 1 ≤ p ∨ mu 0 = 1)
    {R : ℝ → (Fin (n + 2) → Fin (p + 1) → ℝ) → Fin (n + 2) → Fin (p + 1) → ℝ}
    (hR : ∀ t u i, residual (physics (PyScalar.linearSolver a 0)) (some (.vincent v)) (grid setup u) i = some (R t u i)) :
    ∃ dt0 : ℝ, 0 < dt0 ∧ ∀ dts : List ℝ, (∀ dt ∈ dts, 0 ≤ dt ∧ dt ≤ dt0) → ∀ (t : ℝ) (s s' : Sys ℝ _),
      march 3 id R dts t s = some s' →
      ∑ i, ∫ x in (co i).xLeft..(co i).xRight, (setup i).value (setCoeff (setup i) (s'.sol i)) x ^ 2 ≤
        2 * PyFR.energy (mu p) co (grid setup s.sol) := by
  obtain ⟨dt0, hd, h⟩ := third_stable hc a setup hb hk hv h0 h1 hp hR
  refine ⟨dt0, hd, fun dts hdts t s s' hs => ?_⟩
  have h2 := h dts hdts t s s' hs
  rw [energy_form (mu p) co setup s'.sol] at h2
  refine le_trans (Finset.sum_le_sum fun i _ => ?_) (show form (mu p) co setup s'.sol s'.sol ≤ _ by linarith)
  unfold cellForm
  have hpen : 0 ≤ penalty p (mu p) (co i) * iteratedDeriv p (field (setup i) (s'.sol i)) 0 *
      iteratedDeriv p (field (setup i) (s'.sol i)) 0 := by
    rw [mul_assoc]
    exact mul_nonneg (penalty_sign (hc i) p h0 h1).1 (mul_self_nonneg _)
  simp only [pow_two]
  exact le_add_of_nonneg_right hpen

/-- Two elements with two points each and the default ratio: there is a residual, and some step for which runs of any length
do not gain energy. -/
example (a : ℝ) : ∃ (setup : Fin 2 → Setup 1) (v : PyPoly.Vincent) (R : ℝ → (Fin 2 → Fin 2 → ℝ) → Fin 2 → Fin 2 → ℝ),
    PyPoly.vincent 2 PyPoly.muLobatto = some v ∧
    (∀ t u i, residual (physics (PyScalar.linearSolver a 0)) (some (.vincent v)) (grid setup u) i = some (R t u i)) ∧
    ∃ dt0 : ℝ, 0 < dt0 ∧ ∀ N t (s s' : Sys ℝ _), march 3 id R (List.replicate N dt0) t s = some s' →
      PyFR.energy (PyPoly.muLobatto 1) pair (grid setup s'.sol) ≤ PyFR.energy (PyPoly.muLobatto 1) pair (grid setup s.sol) := by
  choose m hm using fun i => (constructors (pair_pos i) gauss2_exact).2.1
  have hb : ∀ i, Built (pair i) (m i) := fun i => .legendreRoots _ gauss2_exact (hm i)
  have hk : ∀ i, (m i).kind ≠ .modal := fun i => by
    rw [(lagrange_sane (by simp) (pair_pos i) (hm i)).2.2.1]; simp
  obtain ⟨v, hv⟩ : ∃ v, PyPoly.vincent (1 + 1) PyPoly.muLobatto = some v := ⟨_, rfl⟩
  obtain ⟨L, hL⟩ := linear_system (n := 0) pair_pos a m hb hk (g := .vincent v)
    (PyPoly.vincent_pair_partial hv (.inl (by norm_num)))
  refine ⟨m, v, fun _ u => L u, hv, fun _ u i => hL u i, ?_⟩
  obtain ⟨dt0, h0, h⟩ := third_stable (n := 0) pair_pos a m hb hk hv ((named_ratios 1).2.2 le_rfl).1
    ((named_ratios 1).2.2 le_rfl).2 (.inl le_rfl) (R := fun _ u => L u) (fun _ u i => hL u i)
  refine ⟨dt0, h0, fun N t s s' hs => h _ (fun dt hdt => ?_) t s s' hs⟩
  obtain rfl := List.eq_of_mem_replicate hdt
  exact ⟨h0.le, le_rfl⟩

/-- Two elements with four points each: some field gains energy in all steps of first order, another in all steps of second. -/
example (a : ℝ) (ha : a ≠ 0) : ∃ (setup : Fin 2 → Setup 3) (v : PyPoly.Vincent) (L : (Fin 2 → Fin 4 → ℝ) →ₗ[ℝ] (Fin 2 → Fin 4 → ℝ)),
    PyPoly.vincent 4 PyPoly.muLobatto = some v ∧
    (∀ u i, residual (physics (PyScalar.linearSolver a 0)) (some (.vincent v)) (grid setup u) i = some (L u i)) ∧
    ∀ order ∈ [1, 2], ∃ u : Fin 2 → Fin 4 → ℝ, ∀ (t dt : ℝ) (s s' : Sys ℝ _), 0 < dt → s.sol = u →
      PyRK.update order id (RK.constant L) dt t s = some s' →
      PyFR.energy (PyPoly.muLobatto 3) pair (grid setup s.sol) < PyFR.energy (PyPoly.muLobatto 3) pair (grid setup s'.sol) := by
  choose m hm using fun i => (constructors (pair_pos i) gauss4_exact).2.1
  have hb : ∀ i, Built (pair i) (m i) := fun i => .legendreRoots _ gauss4_exact (hm i)
  have hk : ∀ i, (m i).kind ≠ .modal := fun i => by
    rw [(lagrange_sane (by simp) (pair_pos i) (hm i)).2.2.1]; simp
  obtain ⟨v, hv⟩ : ∃ v, PyPoly.vincent (3 + 1) PyPoly.muLobatto = some v := ⟨_, rfl⟩
  obtain ⟨L, hL⟩ := linear_system (n := 0) pair_pos a m hb hk (g := .vincent v)
    (PyPoly.vincent_pair_partial hv (.inl (by norm_num)))
  refine ⟨m, v, L, hv, hL, fun order ho => ?_⟩
  refine lower_gain (n := 0) pair_pos hb hk hv ((named_ratios 3).2.2 (by norm_num)).1 ((named_ratios 3).2.2 (by norm_num)).2 hL ha ?_
  rcases List.mem_cons.1 ho with rfl | ho
  · exact .inl ⟨rfl, by norm_num⟩
  · obtain rfl := List.eq_of_mem_singleton ho
    exact .inr ⟨rfl, by norm_num⟩

end MiniCFD.PyFRRK
