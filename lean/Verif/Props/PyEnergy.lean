import Verif.Model.PyEnergy
import Verif.Props.PyDG
import Verif.Props.PyScalar

/-! # C96: energy of the discontinuous Galerkin schemes for scalar equations -/

namespace MiniCFD.PyEnergy
open MiniCFD.PyQuad MiniCFD.PyExpansion MiniCFD.PyDG Polynomial
open MiniCFD.Spec.Gauss (ExactTo)
open MiniCFD.Spec.Simple (IsGodunov)

variable {p n : ℕ} {c : Coordinate}

/-- The function of a state is a polynomial. -/
theorem exists_poly (hc : c.xLeft < c.xRight) {s : Setup p} (h : Built c s) {st : State p ℝ} (hr : Reached s st) :
    ∃ U : ℝ[X], U.natDegree ≤ p ∧ s.value st = fun x => U.eval x := by
  choose q hq using fun i => (basis_values hc h i).1
  refine ⟨∑ i, C (st.coeff i) * q i,
    natDegree_sum_le_of_forall_le _ _ fun i _ => (natDegree_C_mul_le _ _).trans (hq i).1, funext fun x => ?_⟩
  simp only [eval_finsetSum, eval_mul, eval_C, value_eq hc h hr, (hq _).2, smul_eq_mul]
  exact Finset.sum_congr rfl fun i _ => mul_comm _ _

/-- The energy is the exact one, unless the nodes are those of Lobatto. -/
theorem energy_exact {co : Fin (n + 2) → Coordinate} (hc : ∀ i, (co i).xLeft < (co i).xRight) (g : Grid p n ℝ)
    (hb : ∀ i, Built (co i) (g.cells i).setup) (hk : ∀ i, (g.cells i).setup.kind ≠ .lobatto)
    (hr : ∀ i, Reached (g.cells i).setup (g.cells i).state) :
    energy g = ∑ i, (∫ x in (co i).xLeft..(co i).xRight, (g.cells i).setup.value (g.cells i).state x ^ 2) / 2 := by
  refine Finset.sum_congr rfl fun i _ => ?_
  obtain ⟨U, hU, hv⟩ := exists_poly (hc i) (hb i) (hr i)
  have e := weak_form_exact (hc i) (hb i) (hk i) (g.cells i).state.coeff U hU
  have hf : ∀ x, field (g.cells i).setup (g.cells i).state.coeff x = U.eval x := fun x => by
    rw [field_eq (hc i) (hb i), ← value_eq (hc i) (hb i) (hr i), hv]
  simp only [hf, smul_eq_mul, ← pow_two] at e
  rw [hv, e]

/-! ### The balance of energy -/

/-- What the two ends of an element hold. -/
noncomputable def atLeft (co : Fin (n + 2) → Coordinate) (g : Grid p n ℝ) (i : Fin (n + 2)) : ℝ :=
  (g.cells i).setup.value (g.cells i).state (co i).xLeft
noncomputable def atRight (co : Fin (n + 2) → Coordinate) (g : Grid p n ℝ) (i : Fin (n + 2)) : ℝ :=
  (g.cells i).setup.value (g.cells i).state (co i).xRight

theorem periodic_right {V : Type*} [AddCommGroup V] [Module ℝ V] (ph : Physics V) (g : Grid p n V)
    (hg : g.boundary = none) (i : Fin (n + 2)) : rightFace ph g i = leftFace ph g (i + 1) := by
  unfold rightFace
  split_ifs with h
  · rw [hg, h, Fin.last_add_one]
  · rfl

theorem periodic_left {V : Type*} [AddCommGroup V] [Module ℝ V] (ph : Physics V) (g : Grid p n V)
    (hg : g.boundary = none) (i : Fin (n + 2)) :
    leftFace ph g i = interface ph (g.cells (i - 1)) (g.cells i) := by
  unfold leftFace
  split_ifs with h
  · rw [hg, h]
    have : (0 : Fin (n + 2)) - 1 = Fin.last _ := by
      rw [sub_eq_iff_eq_add, Fin.last_add_one]
    rw [this]
  · rfl

/-- Shifting the index around a periodic grid. -/
theorem sum_shift (F : Fin (n + 2) → ℝ) : ∑ i, F (i - 1) = ∑ i, F i :=
  Equiv.sum_comp (Equiv.subRight (1 : Fin (n + 2))) F

theorem exists_primitive (P : ℝ[X]) : ∃ Q : ℝ[X], derivative Q = P ∧ Q.natDegree ≤ P.natDegree + 1 := by
  refine ⟨∑ k ∈ Finset.range (P.natDegree + 1), C (P.coeff k / (k + 1)) * X ^ (k + 1), ?_, ?_⟩
  · rw [derivative_sum]
    conv_rhs => rw [P.as_sum_range_C_mul_X_pow]
    refine Finset.sum_congr rfl fun k _ => ?_
    rw [derivative_C_mul_X_pow]
    congr 2
    push_cast
    have : (k : ℝ) + 1 ≠ 0 := by positivity
    field_simp
  · refine natDegree_sum_le_of_forall_le _ _ fun k hk => (natDegree_C_mul_X_pow_le _ _).trans ?_
    have := Finset.mem_range.1 hk
    omega

/-- A convection equation with polynomial flux: the change of the energy is the sum over the faces of
the integrals of the difference between the flux of the face and the flux function, taken over the
jump. -/
theorem convection_balance {co : Fin (n + 2) → Coordinate} (hc : ∀ i, (co i).xLeft < (co i).xRight)
    (ph : Physics ℝ) (hinv : ph.inviscid = true) (hco : ∀ u, ph.coefficient u = 0) (P : ℝ[X])
    (hP : ph.convective = fun u => P.eval u) (g : Grid p n ℝ) (hg : g.boundary = none)
    (hvis : ∀ i, (g.cells i).viscosity = none) (hb : ∀ i, Built (co i) (g.cells i).setup)
    (hl : ∀ i, (g.cells i).setup.kind = .lobatto → p ≤ 5)
    (hd : (P.natDegree + 1) * p ≤ 2 * p ∨
      (P.natDegree + 1) * p ≤ 2 * p + 2 ∧ ∀ i, (g.cells i).setup.kind ≠ .lobatto)
    (hr : ∀ i, Reached (g.cells i).setup (g.cells i).state) {r : Fin (n + 2) → Fin (p + 1) → ℝ}
    (hres : ∀ i, residual ph g i = some (r i)) :
    ∑ i, (g.cells i).setup.integrator.integrate (fun x =>
        (g.cells i).setup.value (g.cells i).state x * field (g.cells i).setup (r i) x) =
      ∑ i, ∫ s in atRight co g (i - 1)..atLeft co g i,
        (ph.upwind (atRight co g (i - 1)) (atLeft co g i) - ph.convective s) := by
  -- a primitive of the flux
  obtain ⟨Q, hQ, hQd⟩ := exists_primitive P
  have hQi : ∀ a b F : ℝ, ∫ s in a..b, (F - ph.convective s) = Q.eval a - Q.eval b + (b - a) * F := by
    intro a b F
    have hcont : Continuous fun s => P.eval s := P.continuous
    rw [hP, intervalIntegral.integral_sub (continuous_const.intervalIntegrable _ _) (hcont.intervalIntegrable _ _),
      intervalIntegral.integral_const, intervalIntegral.integral_eq_sub_of_hasDerivAt
        (fun x _ => by rw [← hQ]; exact Q.hasDerivAt x) (hcont.intervalIntegrable _ _), smul_eq_mul]
    ring
  have hface : ∀ i, leftFace ph g i = (ph.upwind (atRight co g (i - 1)) (atLeft co g i), 0) := by
    intro i
    rw [periodic_left ph g hg]
    have d0 := ((value_derivatives (hc (i - 1)) (hb (i - 1)) (hr (i - 1)) 0).2 0).2.2.2.1
    have d1 := ((value_derivatives (hc i) (hb i) (hr i) 0).2 0).2.2.1
    rw [iteratedDeriv_zero] at d0 d1
    unfold interface
    simp only [d0, d1, Cell.extra, hvis, hco, min_self, add_zero, if_true, sub_self]
    rfl
  have hcell : ∀ i, (g.cells i).setup.integrator.integrate (fun x =>
        (g.cells i).setup.value (g.cells i).state x * field (g.cells i).setup (r i) x) =
      Q.eval (atRight co g i) - Q.eval (atLeft co g i) + atLeft co g i * (leftFace ph g i).1 -
        atRight co g i * (leftFace ph g (i + 1)).1 := by
    intro i
    obtain ⟨r', h', hw⟩ := weak_form (hc i) ph (g.cells i) (hb i) (hr i) (faceData ph g i)
    have := hres i
    rw [PyDG.residual, h'] at this; cases this
    obtain ⟨U, hU, hv⟩ := exists_poly (hc i) (hb i) (hr i)
    have hw := hw U hU
    have hj : (faceData ph g i).leftJump = 0 ∧ (faceData ph g i).rightJump = 0 := by
      simp only [faceData, periodic_right ph g hg, hface, and_self]
    rw [hj.1, hj.2] at hw
    simp only [smul_eq_mul, mul_zero, add_zero, sub_zero] at hw
    simp only [atLeft, atRight, hv]
    rw [hw]
    have hflux : ∀ x, (derivative U).eval x * dgFluxAt ph (g.cells i) x = (derivative (Q.comp U)).eval x := by
      intro x
      rw [dgFluxAt_eq (hc i) ph _ (hb i) (hr i), hv, dgFlux, hvis, hinv, derivative_comp, hQ, eval_mul, eval_comp, hP]
      simp
    have hdeg : (Q.comp U).natDegree ≤ (P.natDegree + 1) * p :=
      natDegree_comp_le.trans (Nat.mul_le_mul hQd hU)
    simp only [hflux]
    rw [integrate_derivative (hc i) (hb i) (hl i) (Q.comp U) (by
      rcases hd with h | h
      · exact .inl (hdeg.trans h)
      · exact .inr ⟨hdeg.trans h.1, h.2 i⟩)]
    simp only [eval_comp, faceData, periodic_right ph g hg]
  simp only [hcell, hQi, hface, Finset.sum_sub_distrib, Finset.sum_add_distrib, add_sub_cancel_right, sub_mul]
  rw [sum_shift fun i => Q.eval (atRight co g i)]
  have e : ∑ i, atRight co g i * ph.upwind (atRight co g i) (atLeft co g (i + 1)) =
      ∑ i, atRight co g (i - 1) * ph.upwind (atRight co g (i - 1)) (atLeft co g i) := by
    rw [← sum_shift fun i => atRight co g i * ph.upwind (atRight co g i) (atLeft co g (i + 1))]
    simp only [sub_add_cancel]
  rw [e]
  ring

/-- A Godunov flux takes energy away at every face. -/
theorem godunov_dissipates {f : ℝ → ℝ} {l r F : ℝ} (h : IsGodunov f l r F) :
    ∫ s in l..r, (F - f s) ≤ 0 := by
  rcases le_total l r with hlr | hlr
  · have h1 := (h.1 hlr).2
    rw [← neg_nonneg, ← intervalIntegral.integral_neg]
    exact intervalIntegral.integral_nonneg hlr fun s hs => by
      have := h1 ⟨s, hs, rfl⟩
      linarith
  · have h1 := (h.2 hlr).2
    rw [intervalIntegral.integral_symm]
    exact neg_nonpos.2 (intervalIntegral.integral_nonneg hlr fun s hs => sub_nonneg.2 (h1 ⟨s, hs, rfl⟩))

/-- The energy along a solution of the semi-discrete system. -/
theorem energy_derivative {co : Fin (n + 2) → Coordinate} (hc : ∀ i, (co i).xLeft < (co i).xRight)
    (setup : Fin (n + 2) → Setup p) (hb : ∀ i, Built (co i) (setup i))
    (u : ℝ → Fin (n + 2) → Fin (p + 1) → ℝ) (r : Fin (n + 2) → Fin (p + 1) → ℝ) (t : ℝ)
    (hu : ∀ i k, HasDerivAt (fun t => u t i k) (r i k) t) :
    HasDerivAt (fun t => energy (grid setup (u t)))
      (∑ i, (setup i).integrator.integrate (fun x =>
        (setup i).value (setCoeff (setup i) (u t i)) x * field (setup i) (r i) x)) t := by
  unfold energy
  refine HasDerivAt.fun_sum fun i _ => ?_
  have hv : ∀ (a : Fin (p + 1) → ℝ) x, (setup i).value (setCoeff (setup i) a) x =
      ∑ k, (setup i).basisValues x k * a k := fun a x => field_eq (hc i) (hb i) a x
  simp only [grid, Integrator.integrate_eq, smul_eq_mul, hv, field_eq (hc i) (hb i)]
  have h1 : ∀ x, HasDerivAt (fun t => ∑ k, (setup i).basisValues x k * u t i k)
      (∑ k, (setup i).basisValues x k * r i k) t := fun x =>
    HasDerivAt.fun_sum fun k _ => (hu i k).const_mul _
  have h2 := (HasDerivAt.fun_sum (u := Finset.univ) fun q _ =>
    ((h1 ((setup i).integrator.points q)).pow 2).const_mul ((setup i).integrator.weights q)).div_const 2
  refine h2.congr_deriv ?_
  rw [Finset.sum_div]
  refine Finset.sum_congr rfl fun q _ => ?_
  push_cast
  ring

/-- Convection equations with the Godunov flux: the energy of every solution of the semi-discrete
system decreases. -/
theorem convection_stable {co : Fin (n + 2) → Coordinate} (hc : ∀ i, (co i).xLeft < (co i).xRight)
    (s : PyScalar.Solver) (hs : ∀ u, s.eq.coeff u = 0) (P : ℝ[X]) (hP : s.eq.flux = fun u => P.eval u)
    (hgod : ∀ l r, IsGodunov s.eq.flux l r (s.upwindFlux l r))
    (setup : Fin (n + 2) → Setup p) (hb : ∀ i, Built (co i) (setup i))
    (hl : ∀ i, (setup i).kind = .lobatto → p ≤ 5)
    (hd : (P.natDegree + 1) * p ≤ 2 * p ∨ (P.natDegree + 1) * p ≤ 2 * p + 2 ∧ ∀ i, (setup i).kind ≠ .lobatto)
    (u r : ℝ → Fin (n + 2) → Fin (p + 1) → ℝ)
    (hres : ∀ t i, residual (physics s) (grid setup (u t)) i = some (r t i))
    (hu : ∀ t i k, HasDerivAt (fun t => u t i k) (r t i k) t) :
    Antitone fun t => energy (grid setup (u t)) := by
  have hder := fun t => energy_derivative hc setup hb u (r t) t (hu t)
  refine antitone_of_deriv_nonpos (fun t => (hder t).differentiableAt) fun t => ?_
  rw [(hder t).deriv]
  have := convection_balance hc (physics s) (by simp [physics, hs]) hs P hP (grid setup (u t)) rfl
    (fun i => rfl) hb hl hd (fun i => .coeff (u t i) rfl) (hres t)
  refine (le_of_eq this).trans (Finset.sum_nonpos fun i _ => ?_)
  exact godunov_dissipates (hgod _ _)

/-- Linear advection, every degree and every kind of elements. -/
theorem linear_stable {co : Fin (n + 2) → Coordinate} (hc : ∀ i, (co i).xLeft < (co i).xRight) (a : ℝ)
    (setup : Fin (n + 2) → Setup p) (hb : ∀ i, Built (co i) (setup i))
    (hl : ∀ i, (setup i).kind = .lobatto → p ≤ 5) (u r : ℝ → Fin (n + 2) → Fin (p + 1) → ℝ)
    (hres : ∀ t i, residual (physics (PyScalar.linearSolver a 0)) (grid setup (u t)) i = some (r t i))
    (hu : ∀ t i k, HasDerivAt (fun t => u t i k) (r t i k) t) :
    Antitone fun t => energy (grid setup (u t)) := by
  refine convection_stable hc (PyScalar.linearSolver a 0) (fun u => rfl) (C a * X)
    (by funext u; simp [PyScalar.linearSolver, PyScalar.linear]) (PyScalar.linear_godunov a 0) setup hb hl
    (.inl ?_) u r hres hu
  have : (C a * X : ℝ[X]).natDegree ≤ 1 := (natDegree_C_mul_le _ _).trans natDegree_X_le
  exact Nat.mul_le_mul_right p (by omega)

/-- The Burgers equation, where the quadrature is exact. -/
theorem burgers_stable_partial {co : Fin (n + 2) → Coordinate} (hc : ∀ i, (co i).xLeft < (co i).xRight) {k : ℝ}
    (hk : 0 < k) (hp : p ≤ 2) (setup : Fin (n + 2) → Setup p) (hb : ∀ i, Built (co i) (setup i))
    (hl : ∀ i, (setup i).kind ≠ .lobatto) (u r : ℝ → Fin (n + 2) → Fin (p + 1) → ℝ)
    (hres : ∀ t i, residual (physics (PyScalar.burgersSolver k)) (grid setup (u t)) i = some (r t i))
    (hu : ∀ t i j, HasDerivAt (fun t => u t i j) (r t i j) t) :
    Antitone fun t => energy (grid setup (u t)) := by
  refine convection_stable hc (PyScalar.burgersSolver k) (fun u => rfl) (C (k / 2) * X ^ 2)
    (by funext u; simp [PyScalar.burgersSolver, PyScalar.burgers]; ring) (PyScalar.burgers_godunov hk) setup hb
    (fun i h => absurd h (hl i)) (.inr ⟨?_, hl⟩) u r hres hu
  have : (C (k / 2) * X ^ 2 : ℝ[X]).natDegree ≤ 2 := natDegree_C_mul_X_pow_le _ _
  calc _ ≤ 3 * p := Nat.mul_le_mul_right p (by omega)
    _ ≤ _ := by omega

/-- At degree 3 the integral of the flux is not exact any more, and a solution of the Burgers equation
without any jumps gains energy. -/
theorem burgers_gains_energy {co : Fin (n + 2) → Coordinate} (hc : ∀ i, (co i).xLeft < (co i).xRight) {k : ℝ}
    (hk : 0 < k) (setup : Fin (n + 2) → Setup 3) (hb : ∀ i, Built (co i) (setup i))
    (hl : ∀ i, (setup i).kind ≠ .lobatto) :
    ∃ a : Fin (n + 2) → Fin 4 → ℝ,
      (∀ i, atLeft co (grid setup a) i = 0 ∧ atRight co (grid setup a) i = 0) ∧
      ∀ r : Fin (n + 2) → Fin 4 → ℝ,
        (∀ i, residual (physics (PyScalar.burgersSolver k)) (grid setup a) i = some (r i)) →
        0 < ∑ i, (setup i).integrator.integrate (fun x =>
          (setup i).value (setCoeff (setup i) (a i)) x * field (setup i) (r i) x) := by
  set ph := physics (PyScalar.burgersSolver k) with hph
  let M : Fin (n + 2) → ℝ[X] := fun i => (X - C (co i).xLeft) * (X - C (co i).xRight) * X
  have hM3 : ∀ i, (M i).natDegree ≤ 3 := fun i => by
    have h1 := natDegree_X_sub_C_le (co i).xLeft
    have h2 := natDegree_X_sub_C_le (co i).xRight
    have h3 : ((X - C (co i).xLeft) * (X - C (co i).xRight)).natDegree ≤ 2 := natDegree_mul_le.trans (by omega)
    have h4 : (X : ℝ[X]).natDegree ≤ 1 := natDegree_X_le
    exact natDegree_mul_le.trans (by omega)
  have hMc : ∀ i, (M i).coeff 3 = 1 := fun i => by
    rw [show 3 = 2 + 1 from rfl, coeff_mul_X, show 2 = 1 + 1 from rfl,
      coeff_mul_add_eq_of_natDegree_le (natDegree_X_sub_C_le _) (natDegree_X_sub_C_le _)]
    simp
  choose a ha hda using fun i => exists_coeff (hc i) (hb i) (-M i) (by rw [natDegree_neg]; exact hM3 i)
  have hv : ∀ i, (setup i).value (setCoeff (setup i) (a i)) = fun x => (-M i).eval x := fun i => funext fun x => by
    rw [ha, show (setup i).value (setCoeff (setup i) (a i)) x = _ from field_eq (hc i) (hb i) (a i) x]
    exact Finset.sum_congr rfl fun j _ => mul_comm _ _
  have hends : ∀ i, atLeft co (grid setup a) i = 0 ∧ atRight co (grid setup a) i = 0 := fun i => by
    constructor
    · change (setup i).value (setCoeff (setup i) (a i)) (co i).xLeft = 0
      rw [hv]; simp [M]
    · change (setup i).value (setCoeff (setup i) (a i)) (co i).xRight = 0
      rw [hv]; simp [M]
  refine ⟨a, hends, fun r hres => Finset.sum_pos (fun i _ => ?_) ⟨0, Finset.mem_univ _⟩⟩
  have hface : ∀ i, leftFace ph (grid setup a) i = (0, 0) := by
    intro i
    rw [periodic_left ph _ rfl]
    have d0 := ((value_derivatives (hc (i - 1)) (hb (i - 1))
      (Reached.coeff (st := setCoeff (setup (i - 1)) (a (i - 1))) _ rfl) 0).2 0).2.2.2.1
    have d1 := ((value_derivatives (hc i) (hb i) (Reached.coeff (st := setCoeff (setup i) (a i)) _ rfl) 0).2 0).2.2.1
    rw [iteratedDeriv_zero, hv] at d0 d1
    have z0 : (-M (i - 1)).eval (co (i - 1)).xRight = 0 := by simp [M]
    have z1 : (-M i).eval (co i).xLeft = 0 := by simp [M]
    dsimp only at d0 d1
    rw [z0] at d0
    rw [z1] at d1
    have hup : ph.upwind 0 0 = 0 := by
      have := (PyScalar.godunov_monotone (PyScalar.burgers_godunov hk)).1 0
      rw [hph]
      refine this.trans ?_
      simp [PyScalar.burgers]
    have hcoef : ∀ u, ph.coefficient u = 0 := fun u => rfl
    unfold interface
    simp only [grid, d0, d1, Cell.extra, hcoef, min_self, add_zero, if_true, sub_self, hup]
  obtain ⟨r', h', hw⟩ := weak_form (hc i) ph ((grid setup a).cells i) (hb i) (.coeff (a i) rfl)
    (faceData ph (grid setup a) i)
  have := hres i
  rw [PyDG.residual, h'] at this; cases this
  have hw := hw (-M i) (by rw [natDegree_neg]; exact hM3 i)
  simp only [faceData, periodic_right ph (grid setup a) rfl, hface, smul_zero, add_zero, sub_zero] at hw
  simp only [hv]
  refine lt_of_lt_of_eq ?_ hw.symm
  obtain ⟨rule, exact, hi⟩ : ∃ rule : Rule 3, ExactTo rule.apply (2 * 3 + 1) ∧
      (setup i).integrator = rule.integrator (co i) := by
    cases hb i with
    | uniform rule exact h => exact ⟨rule, exact, (lagrange_sane (by simp) (hc i) h).2.2.2.2.1⟩
    | legendreRoots rule exact h => exact ⟨rule, exact, (lagrange_sane (by simp) (hc i) h).2.2.2.2.1⟩
    | modal rule exact h => exact ⟨rule, exact, (modal_sane (hc i) h).2.2.2.1⟩
    | lobatto h =>
      obtain ⟨rule, _, h⟩ := lobatto_cases h
      exact absurd (lagrange_sane (by simp) (hc i) h).2.2.1 (hl i)
  -- the flux
  have hflux : ∀ x, (derivative (-M i)).eval x • dgFluxAt ph ((grid setup a).cells i) x =
      k / 2 * (-(derivative (M i) * M i ^ 2)).eval x := by
    intro x
    rw [dgFluxAt_eq (hc i) ph _ (hb i) (.coeff (a i) rfl)]
    change _ • dgFlux ph ⟨setup i, setCoeff (setup i) (a i), none⟩ x
      ((setup i).value (setCoeff (setup i) (a i)) x) _ = _
    rw [hv]
    have hinv : ph.inviscid = true := by simp [hph, physics, PyScalar.burgersSolver, PyScalar.burgers]
    simp only [dgFlux, hinv, Option.isSome_none, Bool.not_true, Bool.or_self, Bool.false_eq_true, if_false]
    simp only [hph, physics, PyScalar.burgersSolver, PyScalar.burgers, derivative_neg, eval_neg, eval_mul, eval_pow,
      smul_eq_mul]
    ring
  simp only [hflux]
  have e1 : (setup i).integrator.integrate (fun x => k / 2 * (-(derivative (M i) * M i ^ 2)).eval x) =
      k / 2 * (setup i).integrator.integrate (fun x => (-(derivative (M i) * M i ^ 2)).eval x) := by
    simp only [Integrator.integrate_eq, smul_eq_mul, Finset.mul_sum]
    exact Finset.sum_congr rfl fun q _ => by ring
  change 0 < (setup i).integrator.integrate _
  rw [e1]
  refine mul_pos (by positivity) ?_
  -- the polynomial of the nodes
  set N : ℝ[X] := ∏ q : Fin 4, (X - C ((setup i).integrator.points q)) with hN
  have hNm : N.Monic := monic_prod_of_monic _ _ fun q _ => monic_X_sub_C _
  have hNd : N.natDegree = 4 := by
    rw [hN, natDegree_prod _ _ fun q _ => X_sub_C_ne_zero _]
    simp
  set R : ℝ[X] := -(derivative (M i) * M i ^ 2) + C 3 * N ^ 2 with hR
  have hM2 : (M i ^ 2).natDegree ≤ 6 := natDegree_pow_le.trans (by have := hM3 i; omega)
  have hM1 : (derivative (M i)).natDegree ≤ 2 := (natDegree_derivative_le _).trans (by have := hM3 i; omega)
  have hN2 : (N ^ 2).natDegree = 8 := by rw [natDegree_pow, hNd]
  have hRd : R.natDegree ≤ 7 := by
    have h8 : R.natDegree ≤ 8 := by
      refine (natDegree_add_le _ _).trans (max_le ?_ ?_)
      · rw [natDegree_neg]; exact natDegree_mul_le.trans (by omega)
      · exact (natDegree_C_mul_le _ _).trans hN2.le
    have h0 : R.coeff 8 = 0 := by
      have hn : (N ^ 2).coeff 8 = 1 := by
        have := (hNm.pow 2).coeff_natDegree
        rwa [hN2] at this
      have hm : (M i ^ 2).coeff 6 = 1 := by
        rw [pow_two, show 6 = 3 + 3 from rfl, coeff_mul_add_eq_of_natDegree_le (hM3 i) (hM3 i), hMc]
        norm_num
      rw [hR, coeff_add, coeff_neg, coeff_C_mul, hn, show 8 = 2 + 6 from rfl,
        coeff_mul_add_eq_of_natDegree_le hM1 hM2, hm, coeff_derivative, hMc]
      norm_num
    by_contra hlt
    have e8 : R.natDegree = 8 := by omega
    have : R = 0 := by rw [← leadingCoeff_eq_zero, leadingCoeff, e8, h0]
    rw [this] at e8
    simp at e8
  have e2 : (setup i).integrator.integrate (fun x => (-(derivative (M i) * M i ^ 2)).eval x) =
      (setup i).integrator.integrate (fun x => R.eval x) := by
    simp only [Integrator.integrate_eq]
    refine Finset.sum_congr rfl fun q _ => ?_
    have : N.eval ((setup i).integrator.points q) = 0 := by
      rw [hN, eval_prod]
      exact Finset.prod_eq_zero (Finset.mem_univ q) (by simp)
    rw [hR, eval_add, eval_mul, eval_pow, this]
    simp
  have hW : ∫ x in (co i).xLeft..(co i).xRight, (-(derivative (M i) * M i ^ 2)).eval x = 0 := by
    have hder : ∀ x, HasDerivAt (fun x => (-(C (1 / 3) * M i ^ 3)).eval x)
        ((-(derivative (M i) * M i ^ 2)).eval x) x := by
      intro x
      refine ((-(C (1 / 3) * M i ^ 3)).hasDerivAt x).congr_deriv ?_
      simp only [derivative_neg, derivative_mul, derivative_C, derivative_pow, eval_neg, eval_mul, eval_add,
        eval_pow, eval_C, zero_mul, eval_zero]
      norm_num
      ring
    rw [intervalIntegral.integral_eq_sub_of_hasDerivAt (fun x _ => hder x)
      ((Polynomial.continuous _).intervalIntegrable _ _)]
    simp [M]
  rw [e2, hi, integrate_exact exact (co i) R hRd]
  have e3 : ∫ x in (co i).xLeft..(co i).xRight, R.eval x =
      3 * ∫ x in (co i).xLeft..(co i).xRight, N.eval x ^ 2 := by
    simp only [hR, eval_add, eval_mul, eval_C, eval_pow]
    simp only [eval_mul, eval_neg, eval_pow] at hW ⊢
    have h1 : Continuous fun x => -(eval x (derivative (M i)) * eval x (M i) ^ 2) :=
      ((Polynomial.continuous _).mul ((Polynomial.continuous _).pow 2)).neg
    have h2 : Continuous fun x => 3 * eval x N ^ 2 := continuous_const.mul ((Polynomial.continuous _).pow 2)
    rw [intervalIntegral.integral_add (h1.intervalIntegrable _ _) (h2.intervalIntegrable _ _), hW, zero_add,
      intervalIntegral.integral_const_mul]
  rw [e3]
  exact mul_pos (by norm_num) (integral_sq_pos (hc i) hNm.ne_zero)

/-! ### Concrete cases -/

/-- The midpoint rule. -/
def gauss1 : Rule 0 := ⟨fun _ => 0, fun _ => 2⟩

theorem gauss1_exact : ExactTo gauss1.apply (2 * 0 + 1) := by
  refine Rule.exact_of_moments fun k hk => ?_
  obtain rfl | rfl : k = 0 ∨ k = 1 := by omega
  · norm_num [Gauss.mom, Rule.apply, gauss1]
  · norm_num [Gauss.mom, Rule.apply, gauss1]

/-- The rule of Gauss with four nodes. -/
noncomputable def gauss4 : Rule 3 :=
  ⟨![-√((3 + 2 * √(6 / 5)) / 7), -√((3 - 2 * √(6 / 5)) / 7), √((3 - 2 * √(6 / 5)) / 7), √((3 + 2 * √(6 / 5)) / 7)],
    ![1 / 2 - 5 * √(6 / 5) / 36, 1 / 2 + 5 * √(6 / 5) / 36, 1 / 2 + 5 * √(6 / 5) / 36, 1 / 2 - 5 * √(6 / 5) / 36]⟩

theorem gauss4_exact : ExactTo gauss4.apply (2 * 3 + 1) := by
  refine Rule.exact_of_moments fun k hk => ?_
  have hs : √(6 / 5 : ℝ) ^ 2 = 6 / 5 := Real.sq_sqrt (by norm_num)
  have hlt : √(6 / 5 : ℝ) < 3 / 2 := by
    rw [Real.sqrt_lt' (by norm_num)]; norm_num
  have ha : √((3 + 2 * √(6 / 5)) / 7 : ℝ) ^ 2 = (3 + 2 * √(6 / 5)) / 7 := Real.sq_sqrt (by positivity)
  have hb : √((3 - 2 * √(6 / 5)) / 7 : ℝ) ^ 2 = (3 - 2 * √(6 / 5)) / 7 := Real.sq_sqrt (by linarith)
  have e : gauss4.apply (fun x => x ^ k) = (1 / 2 - 5 * √(6 / 5) / 36) * (-√((3 + 2 * √(6 / 5)) / 7)) ^ k +
      (1 / 2 + 5 * √(6 / 5) / 36) * (-√((3 - 2 * √(6 / 5)) / 7)) ^ k +
      (1 / 2 + 5 * √(6 / 5) / 36) * √((3 - 2 * √(6 / 5)) / 7) ^ k +
      (1 / 2 - 5 * √(6 / 5) / 36) * √((3 + 2 * √(6 / 5)) / 7) ^ k := Fin.sum_univ_four _
  rw [e]
  generalize √((3 + 2 * √(6 / 5)) / 7 : ℝ) = x at *
  generalize √((3 - 2 * √(6 / 5)) / 7 : ℝ) = y at *
  generalize √(6 / 5 : ℝ) = s at *
  simp only [Gauss.mom]
  interval_cases k <;> norm_num <;> grind

/-- Elements of degree 3 with an exact rule, so that there are solutions that gain energy. -/
example : ∃ setup : Fin 2 → Setup 3, (∀ i, Built (pair i) (setup i)) ∧ ∀ i, (setup i).kind ≠ .lobatto := by
  choose m hm using fun i => (constructors (pair_pos i) gauss4_exact).2.2.1
  exact ⟨m, fun i => .modal _ gauss4_exact (hm i), fun i => by rw [(modal_sane (pair_pos i) (hm i)).2.1]; simp⟩

/-- A solution of the semi-discrete advection equation with two elements of degree 0: a wave that
decays. -/
example : ∃ (setup : Fin 2 → Setup 0) (u r : ℝ → Fin 2 → Fin 1 → ℝ), (∀ i, Built (pair i) (setup i)) ∧
    (∀ t i, residual (physics (PyScalar.linearSolver 1 0)) (grid setup (u t)) i = some (r t i)) ∧
    (∀ t i k, HasDerivAt (fun t => u t i k) (r t i k) t) ∧
    ∀ t i k, u t i k = (-1) ^ (i : ℕ) * Real.exp (-2 * t) := by
  choose m hm using fun i => (constructors (pair_pos i) gauss1_exact).2.2.1
  have bm : ∀ i, Built (pair i) (m i) := fun i => .modal _ gauss1_exact (hm i)
  have hk : ∀ i, (m i).kind = .modal := fun i => (modal_sane (pair_pos i) (hm i)).2.1
  let u : ℝ → Fin 2 → Fin 1 → ℝ := fun t i _ => (-1) ^ (i : ℕ) * Real.exp (-2 * t)
  have hv : ∀ t i x, (m i).value (setCoeff (m i) (u t i)) x = (-1) ^ (i : ℕ) * Real.exp (-2 * t) := by
    intro t i x
    have := field_eq (pair_pos i) (bm i) (u t i) x
    rw [Fin.sum_univ_one, (basis_values (pair_pos i) (bm i) 0).2.2 (hk i)] at this
    refine this.trans ?_
    simp [u, Vincent.legendre]
  choose r hr _ using fun t i => weak_form (pair_pos i) (physics (PyScalar.linearSolver 1 0))
    ((grid m (u t)).cells i) (bm i) (.coeff _ rfl) (faceData (physics (PyScalar.linearSolver 1 0)) (grid m (u t)) i)
  refine ⟨m, u, r, bm, hr, fun t i k => ?_, fun t i k => rfl⟩
  have hface : ∀ i, (leftFace (physics (PyScalar.linearSolver 1 0)) (grid m (u t)) i).1 =
      (-1) ^ ((i - 1 : Fin 2) : ℕ) * Real.exp (-2 * t) := by
    intro i
    rw [periodic_left _ _ rfl]
    have d0 := ((value_derivatives (pair_pos (i - 1)) (bm (i - 1)) (.coeff (u t (i - 1)) rfl) 0).2 0).2.2.2.1
    rw [iteratedDeriv_zero, hv] at d0
    simp only [interface, grid, d0, Cell.extra]
    have hup : ∀ l r, (physics (PyScalar.linearSolver 1 0)).upwind l r = l := fun l r => by
      simp [physics, PyScalar.Solver.upwindFlux, PyScalar.Solver.getValue, PyScalar.linearSolver, PyScalar.linear]
    have hco : ∀ v, (physics (PyScalar.linearSolver 1 0)).coefficient v = 0 := fun v => rfl
    simp [hup, hco]
  have hbal := cell_balance (pair_pos i) (physics (PyScalar.linearSolver 1 0)) ((grid m (u t)).cells i) (bm i)
    (.coeff _ rfl) _ (hr t i)
  rw [(pair i).eq_linear.1, pair_length, one_smul] at hbal
  have hav : (setCoeff (m i) (r t i)).average = r t i 0 := by simp [setCoeff, mean, hk]
  have hr0 : r t i k = (-1) ^ ((i - 1 : Fin 2) : ℕ) * Real.exp (-2 * t) -
      (-1) ^ ((i + 1 - 1 : Fin 2) : ℕ) * Real.exp (-2 * t) := by
    rw [Subsingleton.elim k 0, ← hav]
    refine hbal.trans ?_
    simp only [faceData, periodic_right _ (grid m (u t)) rfl, hface]
  rw [hr0]
  have hd : HasDerivAt (fun t => Real.exp (-2 * t)) (Real.exp (-2 * t) * (-2)) t := by
    have := ((hasDerivAt_id t).const_mul (-2)).exp
    simpa using this
  refine (hd.const_mul ((-1) ^ (i : ℕ))).congr_deriv ?_
  fin_cases i
  · norm_num [show ((0 : Fin 2) - 1) = 1 from rfl]
    ring
  · norm_num [show ((1 : Fin 2) + 1) = 0 from rfl]
    ring

end MiniCFD.PyEnergy
