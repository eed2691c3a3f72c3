import Verif.Props.PyEnergy

/-! # C97: energy of the direct discontinuous Galerkin scheme for linear advection and diffusion -/

namespace MiniCFD.PyEnergy
open MiniCFD.PyQuad MiniCFD.PyExpansion MiniCFD.PyDG Polynomial
open MiniCFD.Spec.Gauss (ExactTo)

variable {p n : ℕ} {c : Coordinate}

/-! ### One element -/

/-- The form of one element is positive up to degree 4. -/
theorem cell_coercive {h l Jl Jr : ℝ} (hh : 0 < h) (W : ℝ[X]) (hW : W.natDegree ≤ 3) :
    3 / (8 * h) * (Jr ^ 2 + Jl ^ 2) ≤ (∫ x in l..(l + h), W.eval x ^ 2) +
      Jr * (W.eval (l + h) - h / 12 * (derivative W).eval (l + h)) +
      Jl * (W.eval l + h / 12 * (derivative W).eval l) + 3 / (2 * h) * (Jr ^ 2 + Jl ^ 2) := by
  set m := l + h / 2 with hm
  set Y := W.comp (X + C m) with hY
  have hYd : Y.natDegree ≤ 3 := natDegree_comp_le.trans (by rw [natDegree_X_add_C, mul_one]; exact hW)
  have hYe : ∀ s, Y.eval s = Y.coeff 0 + Y.coeff 1 * s + Y.coeff 2 * s ^ 2 + Y.coeff 3 * s ^ 3 := by
    intro s
    rw [eval_eq_sum_range' (by omega : Y.natDegree < 4)]
    simp [Finset.sum_range_succ]
  generalize hy0 : Y.coeff 0 = y0 at hYe
  generalize hy1 : Y.coeff 1 = y1 at hYe
  generalize hy2 : Y.coeff 2 = y2 at hYe
  generalize hy3 : Y.coeff 3 = y3 at hYe
  have hWe : ∀ x, W.eval x = y0 + y1 * (x - m) + y2 * (x - m) ^ 2 + y3 * (x - m) ^ 3 := by
    intro x
    rw [← hYe, hY, eval_comp]
    simp
  have hWd : ∀ x, (derivative W).eval x = y1 + y2 * (2 * (x - m)) + y3 * (3 * (x - m) ^ 2) := by
    intro x
    have h1 := W.hasDerivAt x
    rw [show (fun x => W.eval x) = _ from funext hWe] at h1
    refine h1.unique ?_
    have hs : HasDerivAt (fun x => x - m) 1 x := (hasDerivAt_id x).sub_const m
    refine ((((hs.const_mul y1).const_add y0).add ((hs.pow 2).const_mul y2)).add ((hs.pow 3).const_mul y3)).congr_deriv ?_
    push_cast
    ring
  have hint : ∫ x in l..(l + h), W.eval x ^ 2 = 2 * (y0 ^ 2 * (h / 2) + (y1 ^ 2 + 2 * y0 * y2) * (h / 2) ^ 3 / 3 +
      (y2 ^ 2 + 2 * y1 * y3) * (h / 2) ^ 5 / 5 + y3 ^ 2 * (h / 2) ^ 7 / 7) := by
    have hder : ∀ x, HasDerivAt (fun x => y0 ^ 2 * (x - m) + y0 * y1 * (x - m) ^ 2 +
        (y1 ^ 2 + 2 * y0 * y2) / 3 * (x - m) ^ 3 + (y0 * y3 + y1 * y2) / 2 * (x - m) ^ 4 +
        (y2 ^ 2 + 2 * y1 * y3) / 5 * (x - m) ^ 5 + y2 * y3 / 3 * (x - m) ^ 6 + y3 ^ 2 / 7 * (x - m) ^ 7)
        (W.eval x ^ 2) x := by
      intro x
      have hs : HasDerivAt (fun x => x - m) 1 x := (hasDerivAt_id x).sub_const m
      refine (((((((hs.const_mul _).add ((hs.pow 2).const_mul _)).add ((hs.pow 3).const_mul _)).add
        ((hs.pow 4).const_mul _)).add ((hs.pow 5).const_mul _)).add ((hs.pow 6).const_mul _)).add
        ((hs.pow 7).const_mul _)).congr_deriv ?_
      rw [hWe]
      push_cast
      ring
    rw [intervalIntegral.integral_eq_sub_of_hasDerivAt (fun x _ => hder x)
      ((W.continuous.pow 2).intervalIntegrable _ _), hm]
    ring
  rw [hint, hWe, hWe, hWd, hWd, hm]
  set α := y0 + y2 * (h / 2) ^ 2 / 3 with hα
  set β := (y1 + 3 * y3 * (h / 2) ^ 2 / 5) * (h / 2) with hβ
  set γ := 2 * y2 * (h / 2) ^ 2 / 3 with hγ
  set δ := 2 * y3 * (h / 2) ^ 3 / 5 with hδ
  have key : ((h * α + (Jr + Jl) / 2) ^ 2 + (h * β + 5 / 4 * (Jr - Jl)) ^ 2 / 3 + (h * γ + 5 / 4 * (Jr + Jl)) ^ 2 / 5 +
      (h * δ) ^ 2 / 7 + (Jr - Jl) ^ 2 / 24) / h ≥ 0 := by positivity
  refine sub_nonneg.1 (key.trans (le_of_eq ?_))
  rw [hα, hβ, hγ, hδ]
  field_simp
  ring

/-! ### The balance of energy -/

section
variable {co : Fin (n + 2) → Coordinate}

/-- The jump at the left of an element, the mean slope and the jump of the second derivative. -/
noncomputable def jump (co : Fin (n + 2) → Coordinate) (g : Grid p n ℝ) (i : Fin (n + 2)) : ℝ :=
  atLeft co g i - atRight co g (i - 1)
noncomputable def meanSlope (co : Fin (n + 2) → Coordinate) (g : Grid p n ℝ) (i : Fin (n + 2)) : ℝ :=
  (deriv ((g.cells (i - 1)).setup.value (g.cells (i - 1)).state) (co (i - 1)).xRight +
    deriv ((g.cells i).setup.value (g.cells i).state) (co i).xLeft) / 2
noncomputable def curvatureJump (co : Fin (n + 2) → Coordinate) (g : Grid p n ℝ) (i : Fin (n + 2)) : ℝ :=
  iteratedDeriv 2 ((g.cells i).setup.value (g.cells i).state) (co i).xLeft -
    iteratedDeriv 2 ((g.cells (i - 1)).setup.value (g.cells (i - 1)).state) (co (i - 1)).xRight

/-- What a face of a uniform grid computes. -/
theorem diffusive_face (hc : ∀ i, (co i).xLeft < (co i).xRight) {h : ℝ} (hh : ∀ i, (co i).xRight - (co i).xLeft = h)
    (a : ℝ) {b : ℝ} (hb0 : b ≠ 0) (g : Grid p n ℝ) (hg : g.boundary = none)
    (hvis : ∀ i, (g.cells i).viscosity = none) (hb : ∀ i, Built (co i) (g.cells i).setup)
    (hr : ∀ i, Reached (g.cells i).setup (g.cells i).state) (i : Fin (n + 2)) :
    leftFace (physics (PyScalar.linearSolver a b)) g i =
      (a * (if 0 ≤ a then atRight co g (i - 1) else atLeft co g i) -
        b * (3 / h * jump co g i + h / 12 * curvatureJump co g i + meanSlope co g i), b / 2 * jump co g i) := by
  have d := fun k => ((value_derivatives (hc (i - 1)) (hb (i - 1)) (hr (i - 1)) 0).2 k).2.2.2.1
  have e := fun k => ((value_derivatives (hc i) (hb i) (hr i) 0).2 k).2.2.1
  have hu : ∀ l r, (physics (PyScalar.linearSolver a b)).upwind l r = a * (if 0 ≤ a then l else r) := by
    intro l r
    by_cases h : 0 ≤ a <;>
      simp [physics, PyScalar.Solver.upwindFlux, PyScalar.Solver.getValue, PyScalar.linearSolver, PyScalar.linear, h]
  have hco : ∀ u, (physics (PyScalar.linearSolver a b)).coefficient u = b := fun u => rfl
  have hdf : ∀ u du nu, (physics (PyScalar.linearSolver a b)).diffusive u du nu = (b + nu) * du := fun u du nu => rfl
  have d1 : ∀ k x, (if k ≤ p then iteratedDeriv (k + 1) ((g.cells (i - 1)).setup.value (g.cells (i - 1)).state) x
      else 0) = iteratedDeriv (k + 1) ((g.cells (i - 1)).setup.value (g.cells (i - 1)).state) x := by
    intro k x
    split_ifs with h0
    · rfl
    · exact (iteratedDeriv_high (hc _) (hb _) (hr _) (by omega) x).symm
  have hi1 : ∀ {q : ℕ} (i : Fin (n + 2)) x, q = 0 → (if q < p then iteratedDeriv 1 ((g.cells i).setup.value (g.cells i).state) x
      else 0) = deriv ((g.cells i).setup.value (g.cells i).state) x := by
    intro q i x hq
    split_ifs with h0
    · rw [iteratedDeriv_one]
    · rw [← iteratedDeriv_one, iteratedDeriv_high (hc _) (hb _) (hr _) (by omega)]
  have hi2 : ∀ {q : ℕ} (i : Fin (n + 2)) x, q = 1 → (if q < p then iteratedDeriv 2 ((g.cells i).setup.value (g.cells i).state) x
      else 0) = iteratedDeriv 2 ((g.cells i).setup.value (g.cells i).state) x := by
    intro q i x hq
    split_ifs with h0
    · rfl
    · rw [iteratedDeriv_high (hc _) (hb _) (hr _) (by omega)]
  rw [periodic_left _ g hg]
  unfold interface
  have hlen : ∀ i, (g.cells i).setup.coordinate.length = h := fun i => by
    rw [((hb i).sane (hc i)).2, (co i).eq_linear.1, hh]
  simp only [d, e, Cell.extra, hvis, hco, hu, hdf, min_self, add_zero, zero_add, if_neg hb0, iteratedDeriv_zero,
    hi1 _ _ rfl, hi2 _ _ rfl, interfaceGradient, hlen, smul_eq_mul, jump, curvatureJump, meanSlope, atLeft, atRight]
  refine Prod.ext ?_ ?_
  · dsimp only
    rw [add_self_div_two]
    ring
  · rfl

/-- The quadrature of every element is exact where the balance needs it. -/
theorem integrate_exact' (hc : c.xLeft < c.xRight) {s : Setup p} (h : Built c s)
    (hl : s.kind = .lobatto → p ≤ 5) (S : ℝ[X]) (hS : S.natDegree + 1 ≤ 2 * p ∨ S = 0) :
    s.integrator.integrate (fun x => S.eval x) = ∫ x in c.xLeft..c.xRight, S.eval x := by
  rcases hS with hS | rfl
  · obtain ⟨Q, hQ, hQd⟩ := exists_primitive S
    have := integrate_derivative hc h hl Q (.inl (hQd.trans hS))
    rw [hQ] at this
    rw [this]
    have hd : ∀ x, HasDerivAt (fun x => Q.eval x) (S.eval x) x := fun x => by rw [← hQ]; exact Q.hasDerivAt x
    exact (intervalIntegral.integral_eq_sub_of_hasDerivAt (fun x _ => hd x)
      (S.continuous.intervalIntegrable _ _)).symm
  · simp [Integrator.integrate_eq]

/-- The change of the energy on a uniform periodic grid. -/
theorem diffusion_balance (hc : ∀ i, (co i).xLeft < (co i).xRight) {h : ℝ}
    (hh : ∀ i, (co i).xRight - (co i).xLeft = h) (a : ℝ) {b : ℝ} (hb0 : b ≠ 0) (g : Grid p n ℝ)
    (hg : g.boundary = none) (hvis : ∀ i, (g.cells i).viscosity = none) (hb : ∀ i, Built (co i) (g.cells i).setup)
    (hl : ∀ i, (g.cells i).setup.kind = .lobatto → p ≤ 5)
    (hr : ∀ i, Reached (g.cells i).setup (g.cells i).state) {r : Fin (n + 2) → Fin (p + 1) → ℝ}
    (hres : ∀ i, residual (physics (PyScalar.linearSolver a b)) g i = some (r i)) :
    ∑ i, (g.cells i).setup.integrator.integrate (fun x =>
        (g.cells i).setup.value (g.cells i).state x * field (g.cells i).setup (r i) x) =
      -(|a| / 2) * ∑ i, jump co g i ^ 2 -
      b * ∑ i, ((∫ x in (co i).xLeft..(co i).xRight, deriv ((g.cells i).setup.value (g.cells i).state) x ^ 2) +
        jump co g i * (3 / h * jump co g i + 2 * meanSlope co g i + h / 12 * curvatureJump co g i)) := by
  set ph := physics (PyScalar.linearSolver a b) with hph
  have hface := diffusive_face hc hh a hb0 g hg hvis hb hr
  have hcell : ∀ i, (g.cells i).setup.integrator.integrate (fun x =>
        (g.cells i).setup.value (g.cells i).state x * field (g.cells i).setup (r i) x) =
      a * (atRight co g i ^ 2 - atLeft co g i ^ 2) / 2 -
      b * (∫ x in (co i).xLeft..(co i).xRight, deriv ((g.cells i).setup.value (g.cells i).state) x ^ 2) +
      atLeft co g i * (leftFace ph g i).1 - atRight co g i * (leftFace ph g (i + 1)).1 -
      (deriv ((g.cells i).setup.value (g.cells i).state) (co i).xLeft * (leftFace ph g i).2 +
        deriv ((g.cells i).setup.value (g.cells i).state) (co i).xRight * (leftFace ph g (i + 1)).2) := by
    intro i
    obtain ⟨r', h', hw⟩ := weak_form (hc i) ph (g.cells i) (hb i) (hr i) (faceData ph g i)
    have := hres i
    rw [PyDG.residual, h'] at this; cases this
    obtain ⟨U, hU, hv⟩ := exists_poly (hc i) (hb i) (hr i)
    have hd1 : deriv (fun x => U.eval x) = fun x => (derivative U).eval x := funext fun x => U.deriv
    have hw := hw U hU
    simp only [faceData, periodic_right ph g hg, smul_eq_mul] at hw
    simp only [atLeft, atRight, hv, hd1]
    rw [hw]
    have hflux : ∀ x, (derivative U).eval x * dgFluxAt ph (g.cells i) x =
        (derivative (C (a / 2) * U ^ 2)).eval x - b * ((derivative U) ^ 2).eval x := by
      intro x
      rw [dgFluxAt_eq (hc i) ph _ (hb i) (hr i), hv, hd1, dgFlux, hvis]
      have hinv : ph.inviscid = false := by
        simp [hph, physics, PyScalar.linearSolver, PyScalar.linear, hb0]
      simp only [hinv, Option.isSome_none, Bool.not_false, Bool.or_true, if_true, Cell.extra, hvis]
      have h1 : ∀ u, ph.convective u = a * u := fun u => rfl
      have h2 : ∀ u du nu, ph.diffusive u du nu = (b + nu) * du := fun u du nu => rfl
      rw [h1, h2]
      simp only [derivative_mul, derivative_C, derivative_pow, eval_add, eval_mul, eval_C, eval_pow, zero_mul, eval_zero]
      norm_num
      ring
    have e1 := integrate_derivative (hc i) (hb i) (hl i) (C (a / 2) * U ^ 2) (.inl
      ((natDegree_C_mul_le _ _).trans (natDegree_pow_le.trans (by omega))))
    have e2 := integrate_exact' (hc i) (hb i) (hl i) ((derivative U) ^ 2) (by
      rcases Nat.eq_zero_or_pos p with h0 | h0
      · right
        have : U.natDegree = 0 := by omega
        rw [eq_C_of_natDegree_eq_zero this]; simp
      · left
        have h1 := natDegree_derivative_le U
        have h2 : ((derivative U) ^ 2).natDegree ≤ 2 * (derivative U).natDegree := natDegree_pow_le
        omega)
    simp only [hflux]
    simp only [eval_pow, eval_mul, eval_C] at e1 e2 ⊢
    rw [← e2]
    simp only [Integrator.integrate_eq, smul_eq_mul, mul_sub, Finset.sum_sub_distrib] at e1 ⊢
    rw [e1, Finset.mul_sum]
    have : ∑ x, (g.cells i).setup.integrator.weights x *
        (b * eval ((g.cells i).setup.integrator.points x) (derivative U) ^ 2) =
        ∑ x, b * ((g.cells i).setup.integrator.weights x *
          eval ((g.cells i).setup.integrator.points x) (derivative U) ^ 2) :=
      Finset.sum_congr rfl fun x _ => by ring
    rw [this]
    ring
  have hshift : ∀ F : Fin (n + 2) → ℝ, ∑ i, F i = ∑ i, F (i - 1) := fun F => (sum_shift F).symm
  calc _ = ∑ i, ((a * atRight co g i ^ 2 / 2 - atRight co g i * (leftFace ph g (i + 1)).1 -
        deriv ((g.cells i).setup.value (g.cells i).state) (co i).xRight * (leftFace ph g (i + 1)).2) +
      (-(a * atLeft co g i ^ 2 / 2) -
        b * (∫ x in (co i).xLeft..(co i).xRight, deriv ((g.cells i).setup.value (g.cells i).state) x ^ 2) +
        atLeft co g i * (leftFace ph g i).1 -
        deriv ((g.cells i).setup.value (g.cells i).state) (co i).xLeft * (leftFace ph g i).2)) :=
      Finset.sum_congr rfl fun i _ => by rw [hcell]; ring
    _ = ∑ i, ((a * atRight co g (i - 1) ^ 2 / 2 - atRight co g (i - 1) * (leftFace ph g i).1 -
        deriv ((g.cells (i - 1)).setup.value (g.cells (i - 1)).state) (co (i - 1)).xRight * (leftFace ph g i).2) +
      (-(a * atLeft co g i ^ 2 / 2) -
        b * (∫ x in (co i).xLeft..(co i).xRight, deriv ((g.cells i).setup.value (g.cells i).state) x ^ 2) +
        atLeft co g i * (leftFace ph g i).1 -
        deriv ((g.cells i).setup.value (g.cells i).state) (co i).xLeft * (leftFace ph g i).2)) := by
      rw [Finset.sum_add_distrib, hshift]
      simp only [sub_add_cancel]
      rw [← Finset.sum_add_distrib]
    _ = _ := by
      rw [Finset.mul_sum, Finset.mul_sum, ← Finset.sum_sub_distrib]
      refine Finset.sum_congr rfl fun i _ => ?_
      rw [hface]
      simp only [jump, meanSlope]
      by_cases ha : 0 ≤ a
      · rw [if_pos ha, abs_of_nonneg ha]; ring
      · rw [if_neg ha, abs_of_neg (not_le.1 ha)]; ring

/-! ### Stability up to degree 4 -/

/-- Up to degree 4 the scheme takes energy away at every jump, at a rate that grows with `|a|` and
with `b / h`. -/
theorem diffusion_dissipates_partial (hp : p ≤ 4) (hc : ∀ i, (co i).xLeft < (co i).xRight) {h : ℝ}
    (hh : ∀ i, (co i).xRight - (co i).xLeft = h) (a : ℝ) {b : ℝ} (hb0 : 0 < b) (g : Grid p n ℝ)
    (hg : g.boundary = none) (hvis : ∀ i, (g.cells i).viscosity = none) (hb : ∀ i, Built (co i) (g.cells i).setup)
    (hr : ∀ i, Reached (g.cells i).setup (g.cells i).state) {r : Fin (n + 2) → Fin (p + 1) → ℝ}
    (hres : ∀ i, residual (physics (PyScalar.linearSolver a b)) g i = some (r i)) :
    ∑ i, (g.cells i).setup.integrator.integrate (fun x =>
        (g.cells i).setup.value (g.cells i).state x * field (g.cells i).setup (r i) x) ≤
      -(|a| / 2 + 3 * b / (4 * h)) * ∑ i, jump co g i ^ 2 := by
  have hh0 : 0 < h := by rw [← hh 0]; exact sub_pos.2 (hc 0)
  rw [diffusion_balance hc hh a hb0.ne' g hg hvis hb (fun i _ => by omega) hr hres]
  have hcell : ∀ i, 3 / (8 * h) * (jump co g (i + 1) ^ 2 + jump co g i ^ 2) ≤
      (∫ x in (co i).xLeft..(co i).xRight, deriv ((g.cells i).setup.value (g.cells i).state) x ^ 2) +
      jump co g (i + 1) * (deriv ((g.cells i).setup.value (g.cells i).state) (co i).xRight -
        h / 12 * iteratedDeriv 2 ((g.cells i).setup.value (g.cells i).state) (co i).xRight) +
      jump co g i * (deriv ((g.cells i).setup.value (g.cells i).state) (co i).xLeft +
        h / 12 * iteratedDeriv 2 ((g.cells i).setup.value (g.cells i).state) (co i).xLeft) +
      3 / (2 * h) * (jump co g (i + 1) ^ 2 + jump co g i ^ 2) := by
    intro i
    obtain ⟨U, hU, hv⟩ := exists_poly (hc i) (hb i) (hr i)
    have hd1 : deriv (fun x => U.eval x) = fun x => (derivative U).eval x := funext fun x => U.deriv
    have hd2 : iteratedDeriv 2 (fun x => U.eval x) = fun x => (derivative (derivative U)).eval x := by
      rw [iteratedDeriv_succ, iteratedDeriv_one, hd1]
      funext x
      exact (derivative U).deriv
    have := cell_coercive (l := (co i).xLeft) (Jl := jump co g i) (Jr := jump co g (i + 1)) hh0 (derivative U)
      ((natDegree_derivative_le U).trans (by omega))
    rw [show (co i).xLeft + h = (co i).xRight by rw [← hh i]; ring] at this
    rw [hv, hd1, hd2]
    exact this
  have hsum := Finset.sum_le_sum fun i (_ : i ∈ Finset.univ) => hcell i
  have hs1 : ∑ i, jump co g (i + 1) ^ 2 = ∑ i, jump co g i ^ 2 :=
    Equiv.sum_comp (Equiv.addRight (1 : Fin (n + 2))) fun i => jump co g i ^ 2
  have hs2 : ∑ i, jump co g (i + 1) * (deriv ((g.cells i).setup.value (g.cells i).state) (co i).xRight -
        h / 12 * iteratedDeriv 2 ((g.cells i).setup.value (g.cells i).state) (co i).xRight) =
      ∑ i, jump co g i * (deriv ((g.cells (i - 1)).setup.value (g.cells (i - 1)).state) (co (i - 1)).xRight -
        h / 12 * iteratedDeriv 2 ((g.cells (i - 1)).setup.value (g.cells (i - 1)).state) (co (i - 1)).xRight) := by
    rw [← sum_shift]
    simp only [sub_add_cancel]
  simp only [Finset.sum_add_distrib, ← Finset.mul_sum, hs1] at hsum
  rw [hs2, ← Finset.sum_add_distrib] at hsum
  have hD : ∑ i, ((∫ x in (co i).xLeft..(co i).xRight, deriv ((g.cells i).setup.value (g.cells i).state) x ^ 2) +
        jump co g i * (3 / h * jump co g i + 2 * meanSlope co g i + h / 12 * curvatureJump co g i)) ≥
      3 / (4 * h) * ∑ i, jump co g i ^ 2 := by
    have e : ∑ i, ((∫ x in (co i).xLeft..(co i).xRight, deriv ((g.cells i).setup.value (g.cells i).state) x ^ 2) +
        jump co g i * (3 / h * jump co g i + 2 * meanSlope co g i + h / 12 * curvatureJump co g i)) =
      ∑ i, ((∫ x in (co i).xLeft..(co i).xRight, deriv ((g.cells i).setup.value (g.cells i).state) x ^ 2) +
        jump co g i * (deriv ((g.cells (i - 1)).setup.value (g.cells (i - 1)).state) (co (i - 1)).xRight -
        h / 12 * iteratedDeriv 2 ((g.cells (i - 1)).setup.value (g.cells (i - 1)).state) (co (i - 1)).xRight)) +
      ∑ i, jump co g i * (deriv ((g.cells i).setup.value (g.cells i).state) (co i).xLeft +
        h / 12 * iteratedDeriv 2 ((g.cells i).setup.value (g.cells i).state) (co i).xLeft) +
      3 / h * ∑ i, jump co g i ^ 2 := by
      rw [Finset.mul_sum, ← Finset.sum_add_distrib, ← Finset.sum_add_distrib]
      refine Finset.sum_congr rfl fun i _ => ?_
      simp only [meanSlope, curvatureJump]
      ring
    rw [e, ge_iff_le]
    have h0 : ∑ i, (jump co g i ^ 2 + jump co g i ^ 2) = 2 * ∑ i, jump co g i ^ 2 := by
      rw [Finset.sum_add_distrib]; ring
    have h1 : 3 / (2 * h) * (2 * ∑ i, jump co g i ^ 2) = 3 / h * ∑ i, jump co g i ^ 2 := by
      field_simp
    have h2 : 3 / (8 * h) * (2 * ∑ i, jump co g i ^ 2) = 3 / (4 * h) * ∑ i, jump co g i ^ 2 := by
      rw [show 3 / (4 * h) = 3 / (8 * h) * 2 by field_simp; norm_num]
      ring
    rw [h0, h1, h2] at hsum
    rw [Finset.sum_add_distrib]
    exact hsum
  have := mul_le_mul_of_nonneg_left hD hb0.le
  have e : -(|a| / 2 + 3 * b / (4 * h)) * ∑ i, jump co g i ^ 2 =
      -(|a| / 2) * ∑ i, jump co g i ^ 2 - b * (3 / (4 * h) * ∑ i, jump co g i ^ 2) := by ring
  rw [e]
  linarith

/-- So the energy of every solution of the semi-discrete system decreases. -/
theorem diffusion_stable_partial (hp : p ≤ 4) (hc : ∀ i, (co i).xLeft < (co i).xRight) {h : ℝ}
    (hh : ∀ i, (co i).xRight - (co i).xLeft = h) (a : ℝ) {b : ℝ} (hb0 : 0 < b)
    (setup : Fin (n + 2) → Setup p) (hb : ∀ i, Built (co i) (setup i))
    (u r : ℝ → Fin (n + 2) → Fin (p + 1) → ℝ)
    (hres : ∀ t i, residual (physics (PyScalar.linearSolver a b)) (grid setup (u t)) i = some (r t i))
    (hu : ∀ t i k, HasDerivAt (fun t => u t i k) (r t i k) t) :
    Antitone fun t => energy (grid setup (u t)) := by
  have hh0 : 0 < h := by rw [← hh 0]; exact sub_pos.2 (hc 0)
  have hder := fun t => energy_derivative hc setup hb u (r t) t (hu t)
  refine antitone_of_deriv_nonpos (fun t => (hder t).differentiableAt) fun t => ?_
  rw [(hder t).deriv]
  have := diffusion_dissipates_partial hp hc hh a hb0 (grid setup (u t)) rfl (fun i => rfl) hb
    (fun i => .coeff (u t i) rfl) (hres t)
  refine this.trans ?_
  have h1 : 0 ≤ ∑ i, jump co (grid setup (u t)) i ^ 2 := Finset.sum_nonneg fun i _ => sq_nonneg _
  have h2 : 0 ≤ |a| / 2 + 3 * b / (4 * h) := by positivity
  nlinarith

/-! ### Instability from degree 5 on -/

/-- From degree 5 on there are states whose energy grows, for weak advection without bound as the
grid is refined. -/
theorem diffusion_gains_energy (hp : 5 ≤ p) (hc : ∀ i, (co i).xLeft < (co i).xRight) {h : ℝ}
    (hh : ∀ i, (co i).xRight - (co i).xLeft = h) (a : ℝ) {b : ℝ} (hb0 : 0 < b)
    (setup : Fin (n + 2) → Setup p) (hb : ∀ i, Built (co i) (setup i))
    (hl : ∀ i, (setup i).kind = .lobatto → p ≤ 5) :
    ∃ u : Fin (n + 2) → Fin (p + 1) → ℝ, ∀ r : Fin (n + 2) → Fin (p + 1) → ℝ,
      (∀ i, residual (physics (PyScalar.linearSolver a b)) (grid setup u) i = some (r i)) →
      ∑ i, (setup i).integrator.integrate (fun x =>
        (setup i).value (setCoeff (setup i) (u i)) x * field (setup i) (r i) x) =
      (n + 2) * (208 * b / h - 32 * |a|) := by
  have hh0 : 0 < h := by rw [← hh 0]; exact sub_pos.2 (hc 0)
  let m : Fin (n + 2) → ℝ := fun i => (co i).xLeft + h / 2
  let S : Fin (n + 2) → ℝ[X] := fun i => C (2 / h) * (X - C (m i))
  let U : Fin (n + 2) → ℝ[X] := fun i => -(C 10 * S i) + C 35 * S i ^ 3 - C 21 * S i ^ 5
  have hSd : ∀ i, (S i).natDegree ≤ 1 := fun i => (natDegree_C_mul_le _ _).trans (natDegree_X_sub_C_le _)
  have hUd : ∀ i, (U i).natDegree ≤ p := fun i => by
    have h1 := hSd i
    have h3 : (S i ^ 3).natDegree ≤ 3 * (S i).natDegree := natDegree_pow_le
    have h5 : (S i ^ 5).natDegree ≤ 5 * (S i).natDegree := natDegree_pow_le
    refine (natDegree_sub_le _ _).trans (max_le ((natDegree_add_le _ _).trans (max_le ?_ ?_)) ?_)
    · rw [natDegree_neg]; exact (natDegree_C_mul_le _ _).trans (by omega)
    · exact (natDegree_C_mul_le _ _).trans (by omega)
    · exact (natDegree_C_mul_le _ _).trans (by omega)
  have hUe : ∀ i x, (U i).eval x = -(10 * (2 / h * (x - m i))) + 35 * (2 / h * (x - m i)) ^ 3 -
      21 * (2 / h * (x - m i)) ^ 5 := fun i x => by simp [U, S]
  choose u hu hdu using fun i => exists_coeff (hc i) (hb i) (U i) (hUd i)
  have hv : ∀ i, (setup i).value (setCoeff (setup i) (u i)) = fun x => (U i).eval x := fun i => funext fun x => by
    rw [hu, show (setup i).value (setCoeff (setup i) (u i)) x = _ from field_eq (hc i) (hb i) (u i) x]
    exact Finset.sum_congr rfl fun j _ => mul_comm _ _
  have hs : ∀ i x, HasDerivAt (fun x => 2 / h * (x - m i)) (2 / h) x := fun i x => by
    have := ((hasDerivAt_id x).sub_const (m i)).const_mul (2 / h)
    rwa [mul_one] at this
  have hd1 : ∀ i, deriv (fun x => (U i).eval x) = fun x => 2 / h * (-10 + 105 * (2 / h * (x - m i)) ^ 2 -
      105 * (2 / h * (x - m i)) ^ 4) := by
    intro i
    funext x
    rw [show (fun x => (U i).eval x) = _ from funext (hUe i)]
    refine HasDerivAt.deriv ?_
    refine ((((hs i x).const_mul 10).neg.add (((hs i x).pow 3).const_mul 35)).sub
      (((hs i x).pow 5).const_mul 21)).congr_deriv ?_
    push_cast
    ring
  have hd2 : ∀ i, iteratedDeriv 2 (fun x => (U i).eval x) = fun x => (2 / h) ^ 2 * (210 * (2 / h * (x - m i)) -
      420 * (2 / h * (x - m i)) ^ 3) := by
    intro i
    rw [iteratedDeriv_succ, iteratedDeriv_one, hd1]
    funext x
    refine HasDerivAt.deriv ?_
    refine ((((((hs i x).pow 2).const_mul 105).const_add (-10)).sub
      (((hs i x).pow 4).const_mul 105)).const_mul (2 / h)).congr_deriv ?_
    push_cast
    ring
  have hl1 : ∀ i, 2 / h * ((co i).xLeft - m i) = -1 := fun i => by
    simp only [m]; field_simp; ring
  have hr1 : ∀ i, 2 / h * ((co i).xRight - m i) = 1 := fun i => by
    rw [show (co i).xRight = (co i).xLeft + h by rw [← hh i]; ring]
    simp only [m]; field_simp; ring
  refine ⟨u, fun r hres => ?_⟩
  refine (diffusion_balance hc hh a hb0.ne' (grid setup u) rfl (fun i => rfl) hb hl
    (fun i => .coeff (u i) rfl) hres).trans ?_
  have hJ : ∀ i, jump co (grid setup u) i = -8 := by
    intro i
    simp only [jump, atLeft, atRight, grid, hv, hUe, hl1, hr1]
    norm_num
  have hm : ∀ i, meanSlope co (grid setup u) i = 2 / h * (-10) := by
    intro i
    simp only [meanSlope, grid, hv, hd1, hl1, hr1]
    ring
  have hcv : ∀ i, curvatureJump co (grid setup u) i = (2 / h) ^ 2 * 420 := by
    intro i
    simp only [curvatureJump, grid, hv, hd2, hl1, hr1]
    ring
  have hint : ∀ i, ∫ x in (co i).xLeft..(co i).xRight,
      deriv (((grid setup u).cells i).setup.value ((grid setup u).cells i).state) x ^ 2 = 400 / h := by
    intro i
    change ∫ x in (co i).xLeft..(co i).xRight, deriv ((setup i).value (setCoeff (setup i) (u i))) x ^ 2 = _
    rw [hv, hd1]
    have hder : ∀ x, HasDerivAt (fun x => 2 / h * (100 * (2 / h * (x - m i)) - 700 * (2 / h * (x - m i)) ^ 3 +
        2625 * (2 / h * (x - m i)) ^ 5 - 3150 * (2 / h * (x - m i)) ^ 7 + 1225 * (2 / h * (x - m i)) ^ 9))
        ((2 / h * (-10 + 105 * (2 / h * (x - m i)) ^ 2 - 105 * (2 / h * (x - m i)) ^ 4)) ^ 2) x := by
      intro x
      refine (((((((hs i x).const_mul 100).sub (((hs i x).pow 3).const_mul 700)).add
        (((hs i x).pow 5).const_mul 2625)).sub (((hs i x).pow 7).const_mul 3150)).add
        (((hs i x).pow 9).const_mul 1225)).const_mul (2 / h)).congr_deriv ?_
      push_cast
      ring
    rw [intervalIntegral.integral_eq_sub_of_hasDerivAt (fun x _ => hder x)
      (Continuous.intervalIntegrable (by fun_prop) _ _), hl1, hr1]
    ring
  simp only [hJ, hm, hcv, hint, Finset.sum_const, Finset.card_univ, Fintype.card_fin, nsmul_eq_mul]
  push_cast
  field_simp
  ring

/-! ### Degree 0 -/

/-- With piecewise constants the diffusion is three times too strong: the scheme is the usual three
point one with coefficient `3 b`. -/
theorem degree_zero_diffusion (hc : ∀ i, (co i).xLeft < (co i).xRight) {h : ℝ}
    (hh : ∀ i, (co i).xRight - (co i).xLeft = h) {b : ℝ} (hb0 : b ≠ 0) (setup : Fin (n + 2) → Setup 0)
    (hb : ∀ i, Built (co i) (setup i)) (u : Fin (n + 2) → Fin 1 → ℝ) (v : Fin (n + 2) → ℝ)
    (hv : ∀ i x, (setup i).value (setCoeff (setup i) (u i)) x = v i) (i : Fin (n + 2)) {r : Fin 1 → ℝ}
    (hres : residual (physics (PyScalar.linearSolver 0 b)) (grid setup u) i = some r) :
    (setCoeff (setup i) r).average = 3 * b * (v (i + 1) - 2 * v i + v (i - 1)) / h ^ 2 := by
  have hh0 : h ≠ 0 := by rw [← hh 0]; exact (sub_pos.2 (hc 0)).ne'
  have hface := diffusive_face hc hh 0 hb0 (grid setup u) rfl (fun i => rfl) hb (fun i => .coeff (u i) rfl)
  have hbal := cell_balance (hc i) (physics (PyScalar.linearSolver 0 b)) ((grid setup u).cells i) (hb i)
    (.coeff (u i) rfl) _ hres
  have hval : ∀ i, (setup i).value (setCoeff (setup i) (u i)) = fun _ => v i := fun i => funext (hv i)
  have hi2 : ∀ w : ℝ, iteratedDeriv 2 (fun _ : ℝ => w) = fun _ => 0 := fun w => by
    rw [iteratedDeriv_succ, iteratedDeriv_one]
    funext x
    simp
  have hj : ∀ i, jump co (grid setup u) i = v i - v (i - 1) := fun i => by
    simp only [jump, atLeft, atRight, grid, hv]
  have hm : ∀ i, meanSlope co (grid setup u) i = 0 := fun i => by
    simp [meanSlope, grid, hval]
  have hcv : ∀ i, curvatureJump co (grid setup u) i = 0 := fun i => by
    simp [curvatureJump, grid, hval, hi2]
  rw [(co i).eq_linear.1, hh] at hbal
  simp only [faceData, periodic_right _ (grid setup u) rfl, hface, hj, hm, hcv, smul_eq_mul, add_sub_cancel_right] at hbal
  have e : (setCoeff (setup i) r).average = (h * (setCoeff (setup i) r).average) / h := by field_simp
  rw [e]
  change h * (setCoeff (setup i) r).average = _ at hbal
  rw [hbal]
  field_simp
  ring

/-! ### Concrete cases -/

theorem lobatto_built {c : Coordinate} (hc : c.xLeft < c.xRight) : ∃ s, onLobattoRoots 5 c = some s := by
  obtain ⟨r, hr⟩ : ∃ r, lobatto 5 = some r := ⟨_, rfl⟩
  obtain ⟨s, hs⟩ := lagrange_defined .lobatto hc (lobatto_sound hr).2.2.2.2.2.1.injective r
  exact ⟨s, by simp only [onLobattoRoots, hr]; exact hs⟩

/-- Elements of degree 5 exist, on Lobatto nodes, and of degree 1 of every kind. -/
example : (∃ setup : Fin 2 → Setup 5, ∀ i, Built (pair i) (setup i)) ∧
    ∃ setup : Fin 2 → Setup 1, ∀ i, Built (pair i) (setup i) ∧ (setup i).kind = .modal := by
  refine ⟨?_, ?_⟩
  · choose r hr using fun i : Fin 2 => lobatto_built (pair_pos i)
    exact ⟨r, fun i => .lobatto (hr i)⟩
  · choose m hm using fun i => (constructors (pair_pos i) gauss2_exact).2.2.1
    exact ⟨m, fun i => ⟨.modal _ gauss2_exact (hm i), (modal_sane (pair_pos i) (hm i)).2.1⟩⟩

/-- Samples of `x ^ 2` in three elements of length 1: the true diffusion is `2 b`. -/
example (b : ℝ) : 3 * b * ((4 : ℝ) - 2 * 1 + 0) / 1 ^ 2 = 3 * (2 * b) := by ring

end

end MiniCFD.PyEnergy
