import Verif.Lemmas.PyEnergyRK
import Verif.Props.PyRK

/-! # C145: energy of the discontinuous Galerkin schemes stepped by Runge-Kutta schemes -/

namespace MiniCFD.PyEnergyRK
open MiniCFD.PyQuad MiniCFD.PyExpansion MiniCFD.PyDG MiniCFD.PyEnergy MiniCFD.PyRK Polynomial
open MiniCFD.RK (Sys)

variable {p n : Nat}

/-- What `get_residual_column` returns for the coefficients `u`. -/
def IsResidual (a b : ℝ) (setup : Fin (n + 2) → Setup p)
    (R : ℝ → (Fin (n + 2) → Fin (p + 1) → ℝ) → Fin (n + 2) → Fin (p + 1) → ℝ) : Prop :=
  ∀ t u i, residual (physics (PyScalar.linearSolver a b)) (grid setup u) i = some (R t u i)

/-- There is such a column. -/
theorem exists_residual {co : Fin (n + 2) → Coordinate} (hc : ∀ i, (co i).xLeft < (co i).xRight) (a b : ℝ)
    {setup : Fin (n + 2) → Setup p} (hb : ∀ i, Built (co i) (setup i)) : ∃ R, IsResidual a b setup R := by
  choose r hr _ using fun (u : Fin (n + 2) → Fin (p + 1) → ℝ) i => weak_form (hc i)
    (physics (PyScalar.linearSolver a b)) ((grid setup u).cells i) (hb i) (.coeff _ rfl)
    (faceData (physics (PyScalar.linearSolver a b)) (grid setup u) i)
  exact ⟨fun _ u => r u, fun _ u i => hr u i⟩

/-- The system is linear and does not depend on time. -/
theorem system_linear {co : Fin (n + 2) → Coordinate} (hc : ∀ i, (co i).xLeft < (co i).xRight) {a b : ℝ}
    {setup : Fin (n + 2) → Setup p} (hb : ∀ i, Built (co i) (setup i))
    {R : ℝ → (Fin (n + 2) → Fin (p + 1) → ℝ) → Fin (n + 2) → Fin (p + 1) → ℝ} (hR : IsResidual a b setup R) :
    ∃ L : (Fin (n + 2) → Fin (p + 1) → ℝ) →ₗ[ℝ] (Fin (n + 2) → Fin (p + 1) → ℝ), R = RK.constant L := by
  have hlin : ∀ (c : ℝ) u v, R 0 (c • u + v) = c • R 0 u + R 0 v := fun c u v => funext fun i =>
    residual_linear hc a b setup hb c u v i (hR 0 u i) (hR 0 v i) (hR 0 (c • u + v) i)
  have h0 : R 0 0 = 0 := by
    have := hlin 1 0 0
    simpa using this
  refine ⟨⟨⟨R 0, fun u v => by simpa using hlin 1 u v⟩, fun c u => by simpa [h0] using hlin c u 0⟩, ?_⟩
  funext t u i
  exact Option.some.inj ((hR t u i).symm.trans (hR 0 u i))

/-- The semi-discrete schemes that do not gain energy: advection, and advection with diffusion up to
degree 4 on elements of one length. -/
def Dissipative (co : Fin (n + 2) → Coordinate) (b : ℝ) (setup : Fin (n + 2) → Setup p) : Prop :=
  (b = 0 ∧ ∀ i, (setup i).kind = .lobatto → p ≤ 5) ∨
    (0 < b ∧ p ≤ 4 ∧ ∃ h : ℝ, ∀ i, (co i).xRight - (co i).xLeft = h)

theorem no_gain {co : Fin (n + 2) → Coordinate} (hc : ∀ i, (co i).xLeft < (co i).xRight) {a b : ℝ}
    {setup : Fin (n + 2) → Setup p} (hb : ∀ i, Built (co i) (setup i)) (hd : Dissipative co b setup)
    {R : ℝ → (Fin (n + 2) → Fin (p + 1) → ℝ) → Fin (n + 2) → Fin (p + 1) → ℝ} (hR : IsResidual a b setup R) (t : ℝ)
    (u : Fin (n + 2) → Fin (p + 1) → ℝ) : form setup u (R t u) ≤ 0 := by
  rcases hd with ⟨rfl, hl⟩ | ⟨hb0, hp, h, hh⟩
  · have hdeg : (C a * X : ℝ[X]).natDegree ≤ 1 := (natDegree_C_mul_le _ _).trans natDegree_X_le
    have := convection_balance hc (physics (PyScalar.linearSolver a 0))
      (by simp [physics, PyScalar.linearSolver, PyScalar.linear]) (fun u => rfl) (C a * X)
      (by funext u; simp [physics, PyScalar.linearSolver, PyScalar.linear]) (grid setup u) rfl
      (fun i => rfl) hb hl (.inl (Nat.mul_le_mul_right p (by omega))) (fun i => .coeff (u i) rfl) (hR t u)
    refine (le_of_eq this).trans (Finset.sum_nonpos fun i _ => ?_)
    exact godunov_dissipates (PyScalar.linear_godunov a 0 _ _)
  · have hh0 : 0 < h := by rw [← hh 0]; exact sub_pos.2 (hc 0)
    refine (diffusion_dissipates_partial hp hc hh a hb0 (grid setup u) rfl (fun i => rfl) hb
      (fun i => .coeff (u i) rfl) (hR t u)).trans ?_
    have h1 : 0 ≤ ∑ i, jump co (grid setup u) i ^ 2 := Finset.sum_nonneg fun i _ => sq_nonneg _
    have h2 : 0 ≤ |a| / 2 + 3 * b / (4 * h) := by positivity
    nlinarith

/-- The third-order scheme: if the steps are short enough, runs of any length do not gain energy. -/
theorem third_stable {co : Fin (n + 2) → Coordinate} (hc : ∀ i, (co i).xLeft < (co i).xRight) {a b : ℝ}
    {setup : Fin (n + 2) → Setup p} (hb : ∀ i, Built (co i) (setup i)) (hd : Dissipative co b setup)
    {R : ℝ → (Fin (n + 2) → Fin (p + 1) → ℝ) → Fin (n + 2) → Fin (p + 1) → ℝ} (hR : IsResidual a b setup R) :
    ∃ dt0 : ℝ, 0 < dt0 ∧ ∀ dts : List ℝ, (∀ dt ∈ dts, 0 ≤ dt ∧ dt ≤ dt0) → ∀ (t : ℝ) (s s' : Sys ℝ _),
      march 3 id R dts t s = some s' → energy (grid setup s'.sol) ≤ energy (grid setup s.sol) := by
  obtain ⟨L, rfl⟩ := system_linear hc hb hR
  obtain ⟨M, hM0, hM⟩ := energy_bounded hc hb L
  have hs : 0 < √(M + 1) := Real.sqrt_pos.2 (by linarith)
  refine ⟨1 / √(M + 1), by positivity, ?_⟩
  intro dts
  induction dts with
  | nil => intro _ t s s' h; cases h; exact le_rfl
  | cons dt dts ih =>
    intro hdt t s s' h
    obtain ⟨s1, h1, h2⟩ := Option.bind_eq_some_iff.1 h
    refine (ih (fun d hd => hdt d (List.mem_cons_of_mem _ hd)) _ _ _ h2).trans ?_
    obtain ⟨d0, d1⟩ := hdt dt List.mem_cons_self
    have hstep : s1.sol = Energy.cubic L dt s.sol := by
      rw [linear_step L h1]
      simp only [Spec.RK.expSeries, Finset.sum_range_succ, Finset.sum_range_zero, Nat.factorial, Energy.cubic, pow_zero,
        pow_succ, Module.End.mul_apply, Module.End.one_apply, one_mul]
      push_cast
      match_scalars <;> ring
    have hd2 : dt ^ 2 * M ≤ 1 := by
      have : dt * √(M + 1) ≤ 1 := (le_div_iff₀ hs).1 d1
      have h3 : (dt * √(M + 1)) ^ 2 ≤ 1 := pow_le_one₀ (by positivity) this
      rw [mul_pow, Real.sq_sqrt (by linarith)] at h3
      nlinarith [sq_nonneg dt]
    rw [energy_form, energy_form, hstep]
    refine div_le_div_of_nonneg_right ?_ (by norm_num)
    refine Energy.cubic_contracts (bilinear setup) (form_symm setup) (form_nonneg hc hb) L
      (fun u => no_gain hc hb hd hR 0 u) d0 (fun u => ?_) s.sol
    show dt ^ 2 * form setup (L u) (L u) ≤ form setup u u
    calc dt ^ 2 * form setup (L u) (L u) ≤ dt ^ 2 * (M * form setup u u) :=
          mul_le_mul_of_nonneg_left (hM u) (sq_nonneg _)
      _ = dt ^ 2 * M * form setup u u := by ring
      _ ≤ 1 * form setup u u := mul_le_mul_of_nonneg_right hd2 (form_nonneg hc hb u)
      _ = _ := one_mul _

/-! ### The lower orders -/

/-- Columns that hold a continuous function. -/
def Joined (co : Fin (n + 2) → Coordinate) (setup : Fin (n + 2) → Setup p) (u : Fin (n + 2) → Fin (p + 1) → ℝ) : Prop :=
  ∀ i, field (setup (i - 1)) (u (i - 1)) (co (i - 1)).xRight = field (setup i) (u i) (co i).xLeft

section lower
variable {co : Fin (n + 2) → Coordinate} (hc : ∀ i, (co i).xLeft < (co i).xRight) {a : ℝ}
    {setup : Fin (n + 2) → Setup p} (hb : ∀ i, Built (co i) (setup i))
    (hl : ∀ i, (setup i).kind = .lobatto → p ≤ 5)
    {R : ℝ → (Fin (n + 2) → Fin (p + 1) → ℝ) → Fin (n + 2) → Fin (p + 1) → ℝ} (hR : IsResidual a 0 setup R)

include hc hb hl hR in
/-- They neither gain nor lose energy. -/
theorem joined_balance {u : Fin (n + 2) → Fin (p + 1) → ℝ} (hu : Joined co setup u) (t : ℝ) :
    form setup u (R t u) = 0 := by
  have hdeg : (C a * X : ℝ[X]).natDegree ≤ 1 := (natDegree_C_mul_le _ _).trans natDegree_X_le
  have := convection_balance hc (physics (PyScalar.linearSolver a 0))
    (by simp [physics, PyScalar.linearSolver, PyScalar.linear]) (fun u => rfl) (C a * X)
    (by funext u; simp [physics, PyScalar.linearSolver, PyScalar.linear]) (grid setup u) rfl
    (fun i => rfl) hb hl (.inl (Nat.mul_le_mul_right p (by omega))) (fun i => .coeff (u i) rfl) (hR t u)
  refine this.trans (Finset.sum_eq_zero fun i _ => ?_)
  have e : atRight co (grid setup u) (i - 1) = atLeft co (grid setup u) i := hu i
  rw [e, intervalIntegral.integral_same]

include hc hb hl hR in
/-- They are advected exactly. -/
theorem joined_residual {u : Fin (n + 2) → Fin (p + 1) → ℝ} (hu : Joined co setup u) (t : ℝ) (i : Fin (n + 2)) (x : ℝ) :
    field (setup i) (R t u i) x = -a * deriv (field (setup i) (u i)) x := by
  have hface : ∀ i, leftFace (physics (PyScalar.linearSolver a 0)) (grid setup u) i =
      (a * field (setup i) (u i) (co i).xLeft, 0) := by
    intro i
    rw [periodic_left _ _ rfl]
    have d0 := ((value_derivatives (hc (i - 1)) (hb (i - 1)) (.coeff (u (i - 1)) rfl) 0).2 0).2.2.2.1
    have d1 := ((value_derivatives (hc i) (hb i) (.coeff (u i) rfl) 0).2 0).2.2.1
    rw [iteratedDeriv_zero] at d0 d1
    have e := hu i
    simp only [interface, grid, Cell.extra, upwind_eq]
    have hco : ∀ w, (physics (PyScalar.linearSolver a 0)).coefficient w = 0 := fun w => rfl
    simp only [hco, min_self, add_zero, if_true, sub_self]
    refine Prod.ext ?_ rfl
    show a * _ = a * _
    refine congrArg (a * ·) ?_
    split_ifs
    · exact d0.trans e
    · exact d1
  have hF : ∀ y, dgFluxAt (physics (PyScalar.linearSolver a 0)) ((grid setup u).cells i) y =
      a * field (setup i) (u i) y := by
    intro y
    simp [dgFluxAt, dgFlux, grid, physics, PyScalar.linearSolver, PyScalar.linear, field]
  have hnext : field (setup i) (u i) (co i).xRight = field (setup (i + 1)) (u (i + 1)) (co (i + 1)).xLeft := by
    have := hu (i + 1)
    rw [add_sub_cancel_right] at this
    exact this
  have hres := hR t u i
  have hfd : faceData (physics (PyScalar.linearSolver a 0)) (grid setup u) i =
      ⟨dgFluxAt (physics (PyScalar.linearSolver a 0)) ((grid setup u).cells i) (co i).xLeft,
        dgFluxAt (physics (PyScalar.linearSolver a 0)) ((grid setup u).cells i) (co i).xRight, 0, 0⟩ := by
    rw [hF, hF, faceData, periodic_right _ (grid setup u) rfl, hface, hface, hnext]
  rw [PyDG.residual, hfd] at hres
  have := linear_exact (hc i) (physics (PyScalar.linearSolver a 0)) ((grid setup u).cells i) (hb i) (hl i)
    (.coeff (u i) rfl) a 0 (fun y => by rw [hF, zero_mul, sub_zero]; rfl) hres x
  rw [zero_mul, add_zero] at this
  exact this

omit hc hb in
theorem joined_add {u v : Fin (n + 2) → Fin (p + 1) → ℝ} (hu : Joined co setup u) (hv : Joined co setup v) :
    Joined co setup (u + v) := by
  intro i
  have e : ∀ i x, field (setup i) ((u + v) i) x = field (setup i) (u i) x + field (setup i) (v i) x := by
    intro i x
    have := field_linear (setup i) 1 (u i) (v i) x
    rw [one_smul, one_mul] at this
    exact this
  rw [e, e, hu i, hv i]

include hc hb in
/-- Columns that hold given polynomials. -/
theorem exists_column (φ : Fin (n + 2) → ℝ[X]) (hφ : ∀ i, (φ i).natDegree ≤ p) :
    ∃ u : Fin (n + 2) → Fin (p + 1) → ℝ, ∀ i, field (setup i) (u i) = fun x => (φ i).eval x := by
  choose u hu _ using fun i => exists_coeff (hc i) (hb i) (φ i) (hφ i)
  refine ⟨u, fun i => funext fun x => (field_eq (hc i) (hb i) (u i) x).trans ?_⟩
  rw [hu]
  exact Finset.sum_congr rfl fun k _ => by rw [smul_eq_mul, mul_comm]

include hc hb in
/-- Forward Euler steps of systems that advect continuous fields exactly and keep their energy. -/
theorem euler_gains (B : (Fin (n + 2) → Fin (p + 1) → ℝ) →ₗ[ℝ] (Fin (n + 2) → Fin (p + 1) → ℝ) →ₗ[ℝ] ℝ)
    (hsym : ∀ u v, B u v = B v u) (hdef : ∀ u, u ≠ 0 → 0 < B u u)
    (L : (Fin (n + 2) → Fin (p + 1) → ℝ) →ₗ[ℝ] (Fin (n + 2) → Fin (p + 1) → ℝ))
    (hbal : ∀ u, Joined co setup u → B u (L u) = 0)
    (hmv : ∀ u, Joined co setup u → ∀ i x, field (setup i) (L u i) x = -a * deriv (field (setup i) (u i)) x) (hp : 1 ≤ p) (ha : a ≠ 0) :
    ∃ u : Fin (n + 2) → Fin (p + 1) → ℝ, ∀ dt : ℝ, 0 < dt → B u u < B (u + dt • L u) (u + dt • L u) := by
  -- a continuous function that is linear in each element
  let v : Fin (n + 2) → ℝ := fun i => if i = 1 then 1 else 0
  let φ : Fin (n + 2) → ℝ[X] := fun i =>
    C (v i) + C ((v (i + 1) - v i) / ((co i).xRight - (co i).xLeft)) * (X - C (co i).xLeft)
  have hφ : ∀ i, (φ i).natDegree ≤ p := by
    intro i
    refine (natDegree_add_le _ _).trans (max_le (by simp) ((natDegree_C_mul_le _ _).trans ?_))
    rw [natDegree_X_sub_C]; exact hp
  obtain ⟨u, hval⟩ := exists_column hc hb φ hφ
  have hh : ∀ i, (co i).xRight - (co i).xLeft ≠ 0 := fun i => (sub_pos.2 (hc i)).ne'
  have hu : Joined co setup u := by
    intro i
    rw [hval, hval]
    simp only [φ, eval_add, eval_C, eval_mul, eval_sub, eval_X, sub_self, mul_zero, add_zero]
    rw [div_mul_cancel₀ _ (hh _), sub_add_cancel]; ring
  have hzero := hbal u hu
  have hmove := hmv u hu 0
  have hne : L u ≠ 0 := by
    intro h0
    have h1 := hmove 0
    rw [show L u 0 = 0 from congrFun h0 0, field_eq (hc 0) (hb 0), hval] at h1
    have hd : deriv (fun x => (φ 0).eval x) 0 = 1 / ((co 0).xRight - (co 0).xLeft) := by
      rw [Polynomial.deriv]
      have v0 : v 0 = 0 := if_neg (by simp [Fin.ext_iff])
      have v1 : v 1 = 1 := if_pos rfl
      simp [φ, v0, v1]
    rw [hd] at h1
    simp only [Pi.zero_apply, smul_zero, Finset.sum_const_zero] at h1
    have := mul_ne_zero (neg_ne_zero.2 ha) (one_div_ne_zero (hh 0))
    exact this h1.symm
  refine ⟨u, fun dt hdt => ?_⟩
  have hpos := hdef _ hne
  have hz' : B (L u) u = 0 := (hsym _ _).trans hzero
  simp only [map_add, map_smul, LinearMap.add_apply, LinearMap.smul_apply, smul_eq_mul, hzero, hz']
  have := mul_pos (mul_pos hdt hdt) hpos
  linarith

include hc hb hl hR in
/-- Forward Euler steps, however short, increase the energy of some fields from degree 1 on. -/
theorem first_gains (hp : 1 ≤ p) (ha : a ≠ 0) :
    ∃ u : Fin (n + 2) → Fin (p + 1) → ℝ, ∀ (t dt : ℝ) (s s' : Sys ℝ _), 0 < dt → s.sol = u →
      PyRK.update 1 id R dt t s = some s' → energy (grid setup s.sol) < energy (grid setup s'.sol) := by
  have hbal := fun u (hu : Joined co setup u) => joined_balance hc hb hl hR hu 0
  have hmv := fun u (hu : Joined co setup u) => joined_residual hc hb hl hR hu 0
  obtain ⟨L, rfl⟩ := system_linear hc hb hR
  obtain ⟨u, hu⟩ := euler_gains hc hb (bilinear setup) (form_symm setup) (fun u hu => form_definite hc hb hu) L hbal hmv hp ha
  refine ⟨u, fun t dt s s' hdt hs h => ?_⟩
  have hstep : s'.sol = u + dt • L u := by
    rw [linear_step L h, hs]
    simp only [Spec.RK.expSeries, Finset.sum_range_succ, Finset.sum_range_zero, Nat.factorial, pow_zero, pow_succ, one_mul,
      Module.End.one_apply]
    push_cast
    match_scalars <;> ring
  rw [energy_form, energy_form, hs, hstep]
  refine div_lt_div_of_pos_right ?_ (by norm_num)
  exact hu dt hdt

/-- Sums around the grid. -/
theorem exists_potential (d : Fin (n + 2) → ℝ) (hd : ∑ i, d i = 0) : ∃ V : Fin (n + 2) → ℝ, ∀ i, V (i + 1) = V i + d i := by
  refine ⟨fun i => ∑ j ∈ Finset.univ.filter (· < i), d j, fun i => ?_⟩
  by_cases hi : i = Fin.last _
  · subst hi
    have e : (Finset.univ : Finset (Fin (n + 2))) = insert (Fin.last _) (Finset.univ.filter (· < Fin.last _)) := by
      ext j
      simp only [Finset.mem_univ, Finset.mem_insert, Finset.mem_filter, true_and, true_iff]
      exact (Fin.le_last j).eq_or_lt
    rw [e, Finset.sum_insert (by simp)] at hd
    rw [Fin.last_add_one]
    have : (Finset.univ.filter fun j : Fin (n + 2) => j < 0) = ∅ := by
      ext j; simp
    show ∑ j ∈ Finset.univ.filter (fun j : Fin (n + 2) => j < 0), d j = ∑ j ∈ Finset.univ.filter (· < Fin.last _), d j + _
    rw [this, Finset.sum_empty]
    linarith
  · have hlt : i < Fin.last _ := lt_of_le_of_ne (Fin.le_last i) hi
    have hval : ((i + 1 : Fin (n + 2)) : ℕ) = i + 1 := Fin.val_add_one_of_lt hlt
    have e : (Finset.univ.filter fun j : Fin (n + 2) => j < i + 1) = insert i (Finset.univ.filter (· < i)) := by
      ext j
      simp only [Finset.mem_filter, Finset.mem_univ, true_and, Finset.mem_insert, Fin.lt_def, Fin.ext_iff, hval]
      omega
    show ∑ j ∈ Finset.univ.filter (fun j : Fin (n + 2) => j < i + 1), d j = ∑ j ∈ Finset.univ.filter (· < i), d j + _
    rw [e, Finset.sum_insert (by simp)]
    ring

include hc hb in
/-- Steps of second order of such systems. -/
theorem heun_gains (B : (Fin (n + 2) → Fin (p + 1) → ℝ) →ₗ[ℝ] (Fin (n + 2) → Fin (p + 1) → ℝ) →ₗ[ℝ] ℝ)
    (hsym : ∀ u v, B u v = B v u) (hdef : ∀ u, u ≠ 0 → 0 < B u u)
    (L : (Fin (n + 2) → Fin (p + 1) → ℝ) →ₗ[ℝ] (Fin (n + 2) → Fin (p + 1) → ℝ))
    (hbal : ∀ u, Joined co setup u → B u (L u) = 0)
    (hmv : ∀ u, Joined co setup u → ∀ i x, field (setup i) (L u i) x = -a * deriv (field (setup i) (u i)) x) (hp : 2 ≤ p) (ha : a ≠ 0) :
    ∃ u : Fin (n + 2) → Fin (p + 1) → ℝ, ∀ dt : ℝ, 0 < dt →
      B u u < B (u + dt • L u + (dt ^ 2 / 2) • L (L u)) (u + dt • L u + (dt ^ 2 / 2) • L (L u)) := by
  -- a quadratic spline
  let h : Fin (n + 2) → ℝ := fun i => (co i).xRight - (co i).xLeft
  have h0 : ∀ i, 0 < h i := fun i => sub_pos.2 (hc i)
  let k : Fin (n + 2) → ℝ := fun i => h (i - 1) + h i
  let w : Fin (n + 2) → ℝ := fun i => if i = 0 then k 1 else if i = 1 then -k 0 else 0
  have h10 : (1 : Fin (n + 2)) ≠ 0 := by simp [Fin.ext_iff]
  have hw0 : w 0 = k 1 := if_pos rfl
  have hw1 : w 1 = -k 0 := (if_neg h10).trans (if_pos rfl)
  have hsum : ∑ i, h i * (w i + w (i + 1)) / 2 = 0 := by
    have e1 : ∑ i, h i * w (i + 1) = ∑ i, h (i - 1) * w i := by
      rw [← Equiv.sum_comp (Equiv.addRight (1 : Fin (n + 2))) fun i => h (i - 1) * w i]
      refine Finset.sum_congr rfl fun i _ => ?_
      show _ = h (i + 1 - 1) * w (i + 1)
      rw [add_sub_cancel_right]
    have e2 : ∑ i, k i * w i = 0 := by
      have : ∀ i, k i * w i = (if i = 0 then k 0 * k 1 else 0) + if i = 1 then -(k 0 * k 1) else 0 := by
        intro i
        by_cases i0 : i = 0
        · subst i0; rw [hw0, if_pos rfl, if_neg h10.symm]; ring
        by_cases i1 : i = 1
        · subst i1; rw [hw1, if_neg h10, if_pos rfl]; ring
        · rw [if_neg i0, if_neg i1, show w i = 0 from (if_neg i0).trans (if_neg i1)]; ring
      simp only [this, Finset.sum_add_distrib, Finset.sum_ite_eq', Finset.mem_univ, if_true]
      ring
    rw [← Finset.sum_div]
    simp only [mul_add, Finset.sum_add_distrib, e1]
    rw [← Finset.sum_add_distrib]
    have : ∑ i, (h i * w i + h (i - 1) * w i) = 0 := by
      rw [← e2]
      exact Finset.sum_congr rfl fun i _ => by simp only [k]; ring
    rw [this, zero_div]
  obtain ⟨V, hV⟩ := exists_potential _ hsum
  let φ : Fin (n + 2) → ℝ[X] := fun i => C (V i) + C (w i) * (X - C (co i).xLeft) +
    C ((w (i + 1) - w i) / (2 * h i)) * (X - C (co i).xLeft) ^ 2
  have hφ : ∀ i, (φ i).natDegree ≤ p := by
    intro i
    refine (natDegree_add_le _ _).trans (max_le ((natDegree_add_le _ _).trans (max_le (by simp)
      ((natDegree_C_mul_le _ _).trans ?_))) ((natDegree_C_mul_le _ _).trans ?_))
    · rw [natDegree_X_sub_C]; omega
    · refine (natDegree_pow_le).trans ?_
      rw [natDegree_X_sub_C]; omega
  obtain ⟨u, hval⟩ := exists_column hc hb φ hφ
  have hu : Joined co setup u := by
    intro i
    have e := hV (i - 1)
    rw [sub_add_cancel] at e
    have hn := (h0 (i - 1)).ne'
    rw [hval, hval]
    simp only [φ, eval_add, eval_C, eval_mul, eval_sub, eval_X, eval_pow, sub_self, mul_zero, add_zero, sub_add_cancel]
    rw [zero_pow two_ne_zero, mul_zero, add_zero, e]
    rw [show (co (i - 1)).xRight - (co (i - 1)).xLeft = h (i - 1) from rfl]
    field_simp
    ring
  have hder : ∀ i x, deriv (field (setup i) (u i)) x = w i + (w (i + 1) - w i) / h i * (x - (co i).xLeft) := by
    intro i x
    have hn := (h0 i).ne'
    rw [hval, Polynomial.deriv]
    simp only [φ, derivative_add, derivative_mul, derivative_C, derivative_X_sub_C_pow, derivative_sub, derivative_X,
      eval_add, eval_mul, eval_sub, eval_C, eval_X, eval_pow]
    simp
    field_simp
  have hmove := hmv u hu
  have hu' : Joined co setup (L u) := by
    intro i
    have hn := (h0 (i - 1)).ne'
    rw [hmove, hmove, hder, hder, sub_add_cancel, sub_self, mul_zero, add_zero,
      show (co (i - 1)).xRight - (co (i - 1)).xLeft = h (i - 1) from rfl, div_mul_cancel₀ _ hn]
    ring
  have z1 := hbal u hu
  have z2 := hbal _ hu'
  have z3 := hbal _ (joined_add hu hu')
  have hmove2 := hmv _ hu' 0 0
  have hne : L (L u) ≠ 0 := by
    intro hz
    rw [show L (L u) 0 = 0 from congrFun hz 0, field_eq (hc 0) (hb 0)] at hmove2
    have hf : field (setup 0) (L u 0) = fun x => -a * (w 0 + (w 1 - w 0) / h 0 * (x - (co 0).xLeft)) := by
      funext x
      rw [hmove, hder, zero_add]
    have hd : deriv (fun x => -a * (w 0 + (w 1 - w 0) / h 0 * (x - (co 0).xLeft))) 0 = -a * ((w 1 - w 0) / h 0) := by
      have := ((((hasDerivAt_id (0 : ℝ)).sub_const (co 0).xLeft).const_mul ((w 1 - w 0) / h 0)).const_add (w 0)).const_mul (-a)
      rw [mul_one] at this
      exact this.deriv
    rw [hf, hd] at hmove2
    simp only [Pi.zero_apply, smul_zero, Finset.sum_const_zero] at hmove2
    have hk : ∀ i, 0 < k i := fun i => add_pos (h0 _) (h0 _)
    have hww : w 1 - w 0 ≠ 0 := by
      rw [hw0, hw1]
      have := hk 0
      have := hk 1
      exact (by linarith : -k 0 - k 1 < 0).ne
    exact mul_ne_zero ha (mul_ne_zero ha (div_ne_zero hww (h0 0).ne')) (by linear_combination -hmove2)
  refine ⟨u, fun dt hdt => ?_⟩
  have hpos := hdef _ hne
  have s1 := hsym (L u) u
  have s2 := hsym (L (L u)) u
  have s3 := hsym (L (L u)) (L u)
  simp only [map_add, LinearMap.add_apply, z1, z2] at z3
  simp only [map_add, map_smul, LinearMap.add_apply, LinearMap.smul_apply, smul_eq_mul, s1, s2, s3, z1, z2]
  have := mul_pos (pow_pos hdt 4) hpos
  have z4 : B u (L (L u)) = -B (L u) (L u) := by linarith
  rw [z4]
  nlinarith

include hc hb hl hR in
/-- Steps of second order, however short, increase the energy of some fields from degree 2 on. -/
theorem second_gains (hp : 2 ≤ p) (ha : a ≠ 0) :
    ∃ u : Fin (n + 2) → Fin (p + 1) → ℝ, ∀ (t dt : ℝ) (s s' : Sys ℝ _), 0 < dt → s.sol = u →
      PyRK.update 2 id R dt t s = some s' → energy (grid setup s.sol) < energy (grid setup s'.sol) := by
  have hbal := fun u (hu : Joined co setup u) => joined_balance hc hb hl hR hu 0
  have hmv := fun u (hu : Joined co setup u) => joined_residual hc hb hl hR hu 0
  obtain ⟨L, rfl⟩ := system_linear hc hb hR
  obtain ⟨u, hu⟩ := heun_gains hc hb (bilinear setup) (form_symm setup) (fun u hu => form_definite hc hb hu) L hbal hmv hp ha
  refine ⟨u, fun t dt s s' hdt hs hup => ?_⟩
  have hstep : s'.sol = u + dt • L u + (dt ^ 2 / 2) • L (L u) := by
    rw [linear_step L hup, hs]
    simp only [Spec.RK.expSeries, Finset.sum_range_succ, Finset.sum_range_zero, Nat.factorial, pow_zero, pow_succ, one_mul,
      Module.End.one_apply, Module.End.mul_apply]
    push_cast
    match_scalars <;> ring
  rw [energy_form, energy_form, hs, hstep]
  refine div_lt_div_of_pos_right ?_ (by norm_num)
  exact hu dt hdt

end lower

/-! ### Instances -/

/-- Two elements of degree 3: there is a residual, the energy does not grow for short steps of third
order, and it does with steps of first or second order. -/
example (a : ℝ) (ha : a ≠ 0) : ∃ (setup : Fin 2 → Setup 3) (R : _), IsResidual a 0 setup R ∧
    (∃ dt0 : ℝ, 0 < dt0 ∧ ∀ N t (s s' : Sys ℝ _), march 3 id R (List.replicate N dt0) t s = some s' →
      energy (grid setup s'.sol) ≤ energy (grid setup s.sol)) ∧
    ∀ order ∈ [1, 2], ∃ u : Fin 2 → Fin 4 → ℝ, ∀ (t dt : ℝ) (s s' : Sys ℝ _), 0 < dt → s.sol = u →
      PyRK.update order id R dt t s = some s' → energy (grid setup s.sol) < energy (grid setup s'.sol) := by
  choose m hm using fun i => (constructors (pair_pos i) gauss4_exact).2.2.1
  have bm : ∀ i, Built (pair i) (m i) := fun i => .modal _ gauss4_exact (hm i)
  obtain ⟨R, hR⟩ := exists_residual (n := 0) pair_pos a 0 bm
  refine ⟨m, R, hR, ?_, ?_⟩
  · obtain ⟨dt0, h0, h⟩ := third_stable (n := 0) pair_pos bm (.inl ⟨rfl, fun _ _ => by norm_num⟩) hR
    refine ⟨dt0, h0, fun N t s s' hs => h _ (fun dt hdt => ?_) t s s' hs⟩
    obtain rfl := List.eq_of_mem_replicate hdt
    exact ⟨h0.le, le_rfl⟩
  · intro order ho
    rcases List.mem_cons.1 ho with rfl | ho
    · exact first_gains (n := 0) pair_pos bm (fun _ _ => by norm_num) hR (by norm_num) ha
    · obtain rfl := List.eq_of_mem_singleton ho
      exact second_gains (n := 0) pair_pos bm (fun _ _ => by norm_num) hR (by norm_num) ha

end MiniCFD.PyEnergyRK
