import Verif.Lemmas.PyScalar
import Mathlib.Analysis.Calculus.FDeriv.Pi
import Mathlib.Analysis.Calculus.Deriv.Comp
import Mathlib.Analysis.Normed.Module.FiniteDimension
import Mathlib.Topology.Algebra.Module.FiniteDimension
import Mathlib.LinearAlgebra.Matrix.Notation
import Mathlib.Tactic.NormNum
import Mathlib.Tactic.FinCases

/-! C85, C86: scalar Riemann solvers and coupled systems of the Python code. -/

namespace MiniCFD.PyScalar
open MeasureTheory MiniCFD.Spec.PyScalar MiniCFD.Spec.Simple Matrix

/-- The radius that limits the time step is the modulus of the characteristic speed. -/
theorem radius_is_speed (e : Equation) (he : (∃ a b, e = linear a b) ∨ ∃ k, e = burgers k) (u d : ℝ)
    (hd : HasDerivAt e.flux d u) : e.radius u = |d| := by
  rcases he with ⟨a, b, rfl⟩ | ⟨k, rfl⟩
  · have h : HasDerivAt (linear a b).flux a u := by
      simpa [linear] using (hasDerivAt_id u).const_mul a
    rw [hd.unique h]; rfl
  · have h : HasDerivAt (burgers k).flux (k * u) u := by
      have := (((hasDerivAt_id u).pow 2).const_mul k).div_const 2
      refine this.congr_deriv ?_
      simp
      ring
    rw [hd.unique h]; rfl

/-- C85.  The self-similar function of `LinearAdvection` is the entropy solution. -/
theorem linear_solves (a left right : ℝ) :
    IsEntropySolution (linear a 0).flux left right ((linearSolver a 0).value left right) := by
  have : (linearSolver a 0).value left right = jump a left right := rfl
  rw [this]
  exact jump_entropy fun c => le_of_eq (by simp only [linear_kruzhkov]; ring)

/-- C85.  The self-similar function of `InviscidBurgers` is the entropy solution. -/
theorem burgers_solves {k : ℝ} (hk : 0 < k) (left right : ℝ) :
    IsEntropySolution (burgers k).flux left right ((burgersSolver k).value left right) := by
  rcases le_or_gt left right with h | h
  · have : (burgersSolver k).value left right = fan k left right := funext (burgersValue_fan hk h)
    rw [this]
    exact fan_entropy hk h
  · have : (burgersSolver k).value left right = jump (k * ((left + right) / 2)) left right :=
      funext (burgersValue_jump h)
    rw [this]
    refine jump_entropy fun c => ?_
    simp only [burgers_kruzhkov]
    rcases le_total c right with h1 | h1
    · rw [abs_of_nonneg (by linarith), abs_of_nonneg (by linarith)]
      apply le_of_eq; ring
    · rw [abs_of_nonpos (by linarith : right - c ≤ 0)]
      rcases le_total c left with h2 | h2
      · rw [abs_of_nonneg (by linarith)]
        have := mul_nonneg hk.le (mul_nonneg (sub_nonneg.2 h1) (sub_nonneg.2 h2))
        nlinarith
      · rw [abs_of_nonpos (by linarith)]
        apply le_of_eq; ring

/-- Values stay between the initial ones. -/
theorem burgers_bounds {k : ℝ} (hk : 0 < k) (left right slope : ℝ) :
    min left right ≤ burgersValue k left right slope ∧
      burgersValue k left right slope ≤ max left right := by
  rcases le_or_gt left right with h | h
  · rw [burgersValue_fan hk h, min_eq_left h, max_eq_right h]
    exact ⟨le_max_left _ _, max_le h (min_le_left _ _)⟩
  · rw [burgersValue_jump h, min_eq_right h.le, max_eq_left h.le]
    by_cases hs : slope ≤ k * ((left + right) / 2)
    · rw [jump_le hs]; exact ⟨h.le, le_rfl⟩
    · rw [jump_gt (not_le.1 hs)]; exact ⟨le_rfl, h.le⟩

/-- Conservation, over every wedge. -/
theorem burgers_conserves {k : ℝ} (hk : 0 < k) (left right : ℝ) :
    Conserves (burgers k).flux ((burgersSolver k).value left right) :=
  conserves_of_entropy (burgers_solves hk left right) (fun x => (burgers_bounds hk left right x).1)
    (fun x => (burgers_bounds hk left right x).2)

theorem linear_conserves (a left right : ℝ) :
    Conserves (linear a 0).flux ((linearSolver a 0).value left right) := by
  refine conserves_of_entropy (linear_solves a left right) (m := min left right)
    (M := max left right) (fun x => ?_) fun x => ?_
  all_goals
    change _ ≤ _
    by_cases h : x ≤ a
    · simp [linearSolver, linear, h]
    · simp [linearSolver, linear, h]

/-- The initial values are met: at time zero, and along every line as time goes to zero. -/
theorem initial (s : Solver) {left right : ℝ}
    (h : IsEntropySolution s.eq.flux left right (s.value left right)) {x : ℝ} (hx : x ≠ 0) :
    s.getValue left right x 0 = (if x < 0 then left else right) ∧
      ∃ ε > 0, ∀ t : ℝ, 0 < t → t < ε → s.getValue left right x t = s.getValue left right x 0 := by
  have e0 : s.getValue left right x 0 = if x < 0 then left else right := by
    simp only [Solver.getValue, if_true, hx.le_iff_lt]
  refine ⟨e0, ?_⟩
  rw [e0]
  rcases lt_or_gt_of_ne hx with h0 | h0
  · obtain ⟨a, ha⟩ := h.far_left
    refine ⟨-x / (|a| + 1), by have := abs_nonneg a; have : 0 < -x := by linarith
                               positivity, fun t ht hte => ?_⟩
    rw [if_pos h0, Solver.getValue, if_neg ht.ne']
    refine ha _ ?_
    rw [lt_div_iff₀ (by positivity)] at hte
    rw [div_le_iff₀ ht]
    have := neg_abs_le a
    nlinarith
  · obtain ⟨b, hb⟩ := h.far_right
    refine ⟨x / (|b| + 1), by positivity, fun t ht hte => ?_⟩
    rw [if_neg (not_lt.2 h0.le), Solver.getValue, if_neg ht.ne']
    refine hb _ ?_
    rw [lt_div_iff₀ (by positivity)] at hte
    rw [ge_iff_le, le_div_iff₀ ht]
    have := le_abs_self b
    nlinarith

/-- C85.  The upwind flux of `InviscidBurgers` is the Godunov flux. -/
theorem burgers_godunov {k : ℝ} (hk : 0 < k) (left right : ℝ) :
    IsGodunov (burgers k).flux left right ((burgersSolver k).upwindFlux left right) := by
  have hv : (burgersSolver k).upwindFlux left right =
      (burgers k).flux (burgersValue k left right 0) := by
    simp [Solver.upwindFlux, Solver.getValue, burgersSolver]
  rw [hv]
  constructor
  · intro h
    rw [burgersValue_fan hk h]
    have hz : fan k left right 0 = max left (min right 0) := by simp [fan]
    rw [hz]
    refine ⟨⟨_, ⟨le_max_left _ _, max_le h (min_le_left _ _)⟩, rfl⟩, ?_⟩
    rintro _ ⟨u, ⟨h1, h2⟩, rfl⟩
    simp only [burgers]
    have : (max left (min right 0)) ^ 2 ≤ u ^ 2 := by
      rcases le_total right 0 with hr | hr
      · rw [min_eq_left hr, max_eq_right h]; nlinarith
      · rw [min_eq_right hr]
        rcases le_total left 0 with hl | hl
        · rw [max_eq_right hl]; nlinarith
        · rw [max_eq_left hl]; nlinarith
    have := mul_le_mul_of_nonneg_left this hk.le
    linarith
  · intro h
    rcases h.eq_or_lt with rfl | h
    · rw [burgersValue_fan hk le_rfl]
      have hz : fan k right right 0 = right := by simp [fan]
      rw [hz]
      simp
    · rw [burgersValue_jump h]
      by_cases hs : 0 ≤ k * ((left + right) / 2)
      · rw [jump_le hs]
        have hp : 0 ≤ left + right := by
          have := (mul_nonneg_iff_of_pos_left hk).1 hs
          linarith
        refine ⟨⟨left, ⟨h.le, le_rfl⟩, rfl⟩, ?_⟩
        rintro _ ⟨u, ⟨h1, h2⟩, rfl⟩
        simp only [burgers]
        have : u ^ 2 ≤ left ^ 2 := by nlinarith
        have := mul_le_mul_of_nonneg_left this hk.le
        linarith
      · rw [jump_gt (not_le.1 hs)]
        have hp : left + right < 0 := by
          by_contra hn
          exact hs (mul_nonneg hk.le (by linarith))
        refine ⟨⟨right, ⟨le_rfl, h.le⟩, rfl⟩, ?_⟩
        rintro _ ⟨u, ⟨h1, h2⟩, rfl⟩
        simp only [burgers]
        have : u ^ 2 ≤ right ^ 2 := by nlinarith
        have := mul_le_mul_of_nonneg_left this hk.le
        linarith

/-- C85.  The upwind flux of `LinearAdvection` is the Godunov flux. -/
theorem linear_godunov (a b left right : ℝ) :
    IsGodunov (linear a b).flux left right ((linearSolver a b).upwindFlux left right) := by
  have hv : (linearSolver a b).upwindFlux left right = a * (if 0 ≤ a then left else right) := by
    by_cases h : 0 ≤ a <;> simp [Solver.upwindFlux, Solver.getValue, linearSolver, linear, h]
  rw [hv]
  constructor
  · intro h
    refine ⟨⟨if 0 ≤ a then left else right, by split <;> simp [h], rfl⟩, ?_⟩
    rintro _ ⟨u, ⟨h1, h2⟩, rfl⟩
    simp only [linear]
    split
    · exact mul_le_mul_of_nonneg_left h1 ‹_›
    · exact mul_le_mul_of_nonpos_left h2 (not_le.1 ‹_›).le
  · intro h
    refine ⟨⟨if 0 ≤ a then left else right, by split <;> simp [h], rfl⟩, ?_⟩
    rintro _ ⟨u, ⟨h1, h2⟩, rfl⟩
    simp only [linear]
    split
    · exact mul_le_mul_of_nonneg_left h2 ‹_›
    · exact mul_le_mul_of_nonpos_left h1 (not_le.1 ‹_›).le

/-- Godunov fluxes are consistent and monotone. -/
theorem godunov_monotone {f : ℝ → ℝ} {F : ℝ → ℝ → ℝ} (h : ∀ l r, IsGodunov f l r (F l r)) :
    (∀ u, F u u = f u) ∧ (∀ l l' r, l ≤ l' → F l r ≤ F l' r) ∧
      (∀ l r r', r ≤ r' → F l r' ≤ F l r) := by
  have hc : ∀ u, F u u = f u := by
    intro u
    obtain ⟨⟨v, hv, e⟩, -⟩ := (h u u).1 le_rfl
    rw [← e, le_antisymm hv.2 hv.1]
  refine ⟨hc, fun l l' r hl => ?_, fun l r r' hr => ?_⟩
  · rcases le_total l' r with h1 | h1
    · obtain ⟨⟨v, hv, e⟩, -⟩ := (h l' r).1 h1
      rw [← e]
      exact ((h l r).1 (hl.trans h1)).2 ⟨v, ⟨hl.trans hv.1, hv.2⟩, rfl⟩
    · rcases le_total l r with h2 | h2
      · have a1 := ((h l r).1 h2).2 ⟨r, ⟨h2, le_rfl⟩, rfl⟩
        have a2 := ((h l' r).2 h1).2 ⟨r, ⟨le_rfl, h1⟩, rfl⟩
        exact a1.trans a2
      · obtain ⟨⟨v, hv, e⟩, -⟩ := (h l r).2 h2
        rw [← e]
        exact ((h l' r).2 h1).2 ⟨v, ⟨hv.1, hv.2.trans hl⟩, rfl⟩
  · rcases le_total l r with h1 | h1
    · obtain ⟨⟨v, hv, e⟩, -⟩ := (h l r).1 h1
      rw [← e]
      exact ((h l r').1 (h1.trans hr)).2 ⟨v, ⟨hv.1, hv.2.trans hr⟩, rfl⟩
    · rcases le_total l r' with h2 | h2
      · have a1 := ((h l r').1 h2).2 ⟨l, ⟨le_rfl, h2⟩, rfl⟩
        have a2 := ((h l r).2 h1).2 ⟨l, ⟨h1, le_rfl⟩, rfl⟩
        exact a1.trans a2
      · obtain ⟨⟨v, hv, e⟩, -⟩ := (h l r').2 h2
        rw [← e]
        exact ((h l r).2 h1).2 ⟨v, ⟨hr.trans hv.1, hv.2⟩, rfl⟩

/-- The comment in `get_upwind_flux`: when the value jumps on the axis, the flux does not. -/
theorem flux_on_axis {f : ℝ → ℝ} {w : ℝ → ℝ} (hc : Conserves f w) {M : ℝ} (hM : ∀ x, |w x| ≤ M) :
    Filter.Tendsto (fun x => f (w x)) (nhds 0) (nhds (f (w 0))) := by
  have hM0 : 0 ≤ M := (abs_nonneg _).trans (hM 0)
  have key : ∀ x, |f (w x) - f (w 0)| ≤ 2 * M * |x| := by
    intro x
    have hI : |∫ y in (0 : ℝ)..x, w y| ≤ M * |x| := by
      have := intervalIntegral.norm_integral_le_of_norm_le_const (a := 0) (b := x) (f := w) (C := M)
        (fun y _ => hM y)
      simpa using this
    have e : ∫ y in (0 : ℝ)..x, w y = x * w x - f (w x) + f (w 0) := by
      rcases le_total 0 x with hx | hx
      · rw [hc 0 x hx]; ring
      · rw [intervalIntegral.integral_symm, hc x 0 hx]; ring
    have hx : |x * w x| ≤ M * |x| := by
      rw [abs_mul, mul_comm]; exact mul_le_mul_of_nonneg_right (hM x) (abs_nonneg x)
    have : f (w x) - f (w 0) = x * w x - ∫ y in (0 : ℝ)..x, w y := by rw [e]; ring
    rw [this]
    calc _ ≤ |x * w x| + |∫ y in (0 : ℝ)..x, w y| := abs_sub _ _
      _ ≤ _ := by linarith
  rw [tendsto_iff_norm_sub_tendsto_zero]
  refine squeeze_zero (fun _ => norm_nonneg _) (fun x => key x) ?_
  have : Filter.Tendsto (fun x : ℝ => 2 * M * |x|) (nhds 0) (nhds (2 * M * |0|)) := by
    apply Continuous.tendsto; fun_prop
  simpa using this

/-! ### C86 -/

namespace Coupled
variable {c : Coupled}

theorem L_mul_R (h : IsUnit c.R.det) : c.L * c.R = 1 := Matrix.nonsing_inv_mul _ h
theorem R_mul_L (h : IsUnit c.R.det) : c.R * c.L = 1 := Matrix.mul_nonsing_inv _ h

/-- Characteristic variables can be taken back and forth. -/
theorem round_trip (h : IsUnit c.R.det) (U : Vec) :
    c.fromChar (c.toChar U) = U ∧ c.toChar (c.fromChar U) = U := by
  simp only [fromChar, toChar, Matrix.mulVec_mulVec, R_mul_L h, L_mul_R h, Matrix.one_mulVec,
    and_self]

theorem mul_diagonal (c : Coupled) (a b : ℝ) :
    a • c.A0 + b • c.A1 = c.R * Matrix.diagonal ![a, b] * c.L := by
  ext i j
  simp [A0, A1, Matrix.mul_apply, Fin.sum_univ_two, Matrix.diagonal]
  ring

/-- The Jacobian has the columns of `R` for eigenvectors, the rows of `L` on the other side, and the
reported speeds for eigenvalues. -/
theorem eigen (h : IsUnit c.R.det) (U : Vec) :
    c.jacobian U * c.R = c.R * Matrix.diagonal (c.eigvals U) ∧
      c.L * c.jacobian U = Matrix.diagonal (c.eigvals U) * c.L := by
  have e : c.jacobian U = c.R * Matrix.diagonal (c.eigvals U) * c.L := by
    have := mul_diagonal c (c.eigvals U 0) (c.eigvals U 1)
    rw [jacobian, this]
    rfl
  rw [e]
  constructor
  · rw [Matrix.mul_assoc _ c.L, L_mul_R h, Matrix.mul_one]
  · rw [← Matrix.mul_assoc, ← Matrix.mul_assoc, L_mul_R h, Matrix.one_mul]

/-- The Jacobian is the derivative of the flux. -/
theorem jacobian_is_derivative (U : Vec)
    (h0 : HasDerivAt c.e0.flux (c.e0.speed (c.toChar U 0)) (c.toChar U 0))
    (h1 : HasDerivAt c.e1.flux (c.e1.speed (c.toChar U 1)) (c.toChar U 1)) :
    HasFDerivAt c.flux (Matrix.toLin' (c.jacobian U)).toContinuousLinearMap U := by
  have hL : HasFDerivAt c.toChar (Matrix.toLin' c.L).toContinuousLinearMap U :=
    (Matrix.toLin' c.L).toContinuousLinearMap.hasFDerivAt
  have hi : ∀ i, HasFDerivAt (fun U => c.toChar U i)
      ((ContinuousLinearMap.proj i).comp (Matrix.toLin' c.L).toContinuousLinearMap) U :=
    fun i => hasFDerivAt_pi'.1 hL i
  have g0 := h0.comp_hasFDerivAt U (hi 0)
  have g1 := h1.comp_hasFDerivAt U (hi 1)
  have hG : HasFDerivAt (fun U => ![c.e0.flux (c.toChar U 0), c.e1.flux (c.toChar U 1)])
      (ContinuousLinearMap.pi ![c.e0.speed (c.toChar U 0) •
        ((ContinuousLinearMap.proj 0).comp (Matrix.toLin' c.L).toContinuousLinearMap),
        c.e1.speed (c.toChar U 1) •
        ((ContinuousLinearMap.proj 1).comp (Matrix.toLin' c.L).toContinuousLinearMap)]) U := by
    refine hasFDerivAt_pi.2 fun i => ?_
    fin_cases i
    · exact g0
    · exact g1
  have := (Matrix.toLin' c.R).toContinuousLinearMap.hasFDerivAt.comp U hG
  refine this.congr_fderiv ?_
  ext v i
  have e : c.jacobian U = c.R * Matrix.diagonal ![c.e0.speed (c.toChar U 0),
      c.e1.speed (c.toChar U 1)] * c.L := mul_diagonal c _ _
  simp [e, ← Matrix.mulVec_mulVec, Matrix.mulVec, dotProduct, Fin.sum_univ_two, Matrix.diagonal]

/-- Without extra viscosity the diffusive flux is the coefficient matrix times the gradient; the
extra viscosity acts on the characteristic variables. -/
theorem diffusion (U dU nu : Vec) :
    c.diffusiveFlux U dU nu = c.coeff U *ᵥ dU + (nu 0 • c.A0 + nu 1 • c.A1) *ᵥ dU := by
  rw [coeff, mul_diagonal, mul_diagonal]
  ext i
  simp [diffusiveFlux, Equation.diffusiveFlux, toChar, ← Matrix.mulVec_mulVec, Matrix.mulVec,
    dotProduct, Fin.sum_univ_two, Matrix.diagonal]
  ring

end Coupled

namespace CoupledSolver
variable {s : CoupledSolver}

/-- C86.  The characteristic variables of the solution of the system are the solutions of the scalar
Riemann problems between the characteristic variables of the initial values. -/
theorem solves (h : IsUnit s.R.det) (left right : Vec) (slope : ℝ) :
    s.eq.toChar (s.value left right slope) =
      ![s.s0.value (s.eq.toChar left 0) (s.eq.toChar right 0) slope,
        s.s1.value (s.eq.toChar left 1) (s.eq.toChar right 1) slope] :=
  (Coupled.round_trip (c := s.eq) h _).2

/-- C86.  The upwind flux is made of the scalar upwind fluxes. -/
theorem upwind (h : IsUnit s.R.det) (left right : Vec) :
    s.upwindFlux left right = some (s.R *ᵥ
      ![s.s0.upwindFlux (s.eq.toChar left 0) (s.eq.toChar right 0),
        s.s1.upwindFlux (s.eq.toChar left 1) (s.eq.toChar right 1)]) := by
  have := solves h left right 0
  simp only [upwindFlux, getValue, one_ne_zero, if_false, zero_div, Option.map_some, Coupled.flux,
    this, Solver.upwindFlux, Solver.getValue]
  rfl

/-- Hence the flux is consistent when the scalar ones are. -/
theorem consistent (h : IsUnit s.R.det) (h0 : ∀ u, s.s0.upwindFlux u u = s.s0.eq.flux u)
    (h1 : ∀ u, s.s1.upwindFlux u u = s.s1.eq.flux u) (U : Vec) :
    s.upwindFlux U U = some (s.eq.flux U) := by
  rw [upwind h, h0, h1]
  rfl

/-- C86, the initial values, refuted: at time zero there is no value. -/
theorem no_initial (left right : Vec) (x : ℝ) : s.getValue left right x 0 = none := if_pos rfl

/-- C86, the initial values, what holds: they are met as time goes to zero. -/
theorem initial_partial (h : IsUnit s.R.det)
    (h0 : ∀ l r, IsEntropySolution s.s0.eq.flux l r (s.s0.value l r))
    (h1 : ∀ l r, IsEntropySolution s.s1.eq.flux l r (s.s1.value l r)) (left right : Vec) {x : ℝ}
    (hx : x ≠ 0) :
    ∃ ε > 0, ∀ t : ℝ, 0 < t → t < ε →
      s.getValue left right x t = some (if x < 0 then left else right) := by
  obtain ⟨i0, ε0, p0, q0⟩ := initial s.s0 (h0 (s.eq.toChar left 0) (s.eq.toChar right 0)) hx
  obtain ⟨i1, ε1, p1, q1⟩ := initial s.s1 (h1 (s.eq.toChar left 1) (s.eq.toChar right 1)) hx
  refine ⟨min ε0 ε1, lt_min p0 p1, fun t ht hte => ?_⟩
  have e0 := (q0 t ht (hte.trans_le (min_le_left _ _))).trans i0
  have e1 := (q1 t ht (hte.trans_le (min_le_right _ _))).trans i1
  rw [Solver.getValue, if_neg ht.ne'] at e0 e1
  rw [getValue, if_neg ht.ne']
  refine congrArg some ?_
  rw [← (Coupled.round_trip (c := s.eq) h (s.value left right (x / t))).1, solves h, e0, e1]
  split
  all_goals
    refine Eq.trans ?_ (Coupled.round_trip (c := s.eq) h _).1
    congr 1
    ext i; fin_cases i <;> rfl

end CoupledSolver

/-! Concrete cases. -/

example : (burgersSolver 2).upwindFlux (-1) 3 = 0 := by
  norm_num [Solver.upwindFlux, Solver.getValue, burgersSolver, burgersValue, burgersSlopes, burgers]

/-- A fan, a shock moving left, and a shock that stands. -/
example : (burgersSolver 2).getValue (-1) 3 1 1 = 1 / 2 ∧ (burgersSolver 2).getValue 1 (-3) (-1) 1 = -3 ∧
    (burgersSolver 2).upwindFlux 1 (-1) = 1 := by
  norm_num [Solver.upwindFlux, Solver.getValue, burgersSolver, burgersValue, burgersSlopes, burgers]

/-- The system of test_riemann.py. -/
noncomputable def testSystem : CoupledSolver := ⟨linearSolver 1 0, burgersSolver 1, !![1, 1; -1, 1]⟩

example : IsUnit testSystem.R.det := by
  simp [testSystem, Matrix.det_fin_two]

example (U : Vec) : testSystem.upwindFlux U U = some (testSystem.eq.flux U) :=
  CoupledSolver.consistent (by simp [testSystem, Matrix.det_fin_two])
    (godunov_monotone (linear_godunov 1 0)).1 (godunov_monotone (burgers_godunov one_pos)).1 U

end MiniCFD.PyScalar
