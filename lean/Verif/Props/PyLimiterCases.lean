import Verif.Props.PyLimiter
import Verif.Props.PyGauss

/-! What the limiters of the Python code do on whole grids, and where they fail (C103, C104, C105). -/

namespace MiniCFD.PyLimiter

open MiniCFD.PyQuad MiniCFD.PyExpansion Polynomial
open MiniCFD.Spec.Gauss (ExactTo)

/-! ### Grids -/

section Grid
variable {p m : ℕ} {ι : Type} [DecidableEq ι] {setup : ι → Setup p} {coordinate : ι → Coordinate}

private theorem every {V : Type} [NormedAddCommGroup V] [NormedSpace ℝ V]
    {new : (ι → State p V) → ι → Option (Fin (p + 1) → V)} {troubled : List ι} {states states' : ι → State p V}
    (h : reconstruct new setup troubled states = some states') (P : ι → State p V → Prop)
    (h0 : ∀ i, P i (states i)) (h1 : ∀ i t, new states i = some t → P i (setTaylor (setup i) t)) (i : ι) : P i (states' i) := by
  obtain ⟨a, b⟩ := simultaneous new setup h i
  by_cases hi : i ∈ troubled
  · obtain ⟨t, e, e'⟩ := b hi
    rw [e']; exact h1 i t e
  · rw [a hi]; exact h0 i

/-- C104: After `ZhongXingHui2013` on a grid all elements have their old averages, whichever were troubled. -/
theorem zxh_grid_partial {epsilon wSmall : ℝ} (he : 0 < epsilon) (h0 : 0 < wSmall) (h1 : 2 * wSmall < 1)
    (hc : ∀ i, (coordinate i).xLeft < (coordinate i).xRight) (h : ∀ i, Built (coordinate i) (setup i))
    (hk : ∀ i, (setup i).kind ≠ .lobatto) (links : ι → List (ι × ℝ)) (hlinks : ∀ i, (links i).length ≤ 2) (troubled : List ι) :
    (∀ states : ι → State p ℝ, (∀ i, Reached (setup i) (states i)) → ∃ states',
      reconstruct (fun st i => zxhNewScalar epsilon wSmall (setup i) (st i) (neighboursOf setup st (links i))) setup troubled
        states = some states' ∧ ∀ i, Reached (setup i) (states' i) ∧ (states' i).average = (states i).average) ∧
    (∀ (states : ι → State p (Fin m → ℝ)) (left right : (ι → State p (Fin m → ℝ)) → ι → Matrix (Fin m) (Fin m) ℝ),
      (∀ i, Reached (setup i) (states i)) → (∀ st i, right st i * left st i = 1) → ∃ states',
      reconstruct (fun st i => zxhNewSystem epsilon wSmall (left st i) (right st i) (setup i) (st i)
        (neighboursOf setup st (links i))) setup troubled states = some states' ∧
        ∀ i, Reached (setup i) (states' i) ∧ (states' i).average = (states i).average) := by
  refine ⟨fun states hr => ?_, fun states left right hr hrl => ?_⟩
  · obtain ⟨states', hs⟩ := Option.isSome_iff_exists.mp ((succeeds (fun st i => zxhNewScalar epsilon wSmall (setup i) (st i)
      (neighboursOf setup st (links i))) setup troubled states).mpr fun i _ => rfl)
    refine ⟨states', hs, every hs (fun i st => Reached (setup i) st ∧ st.average = (states i).average)
      (fun i => ⟨hr i, rfl⟩) fun i t ht => ⟨.taylor t rfl, ?_⟩⟩
    obtain ⟨t', ht', e⟩ := (zxh_average_partial (m := 0) he h0 h1 (hc i) (h i) (hk i)).1 (states i)
      (neighboursOf setup states (links i)) (hr i) (by simpa [neighboursOf] using hlinks i)
    rw [ht'] at ht
    cases ht
    exact e
  · obtain ⟨states', hs⟩ := Option.isSome_iff_exists.mp ((succeeds (fun st i => zxhNewSystem epsilon wSmall (left st i)
      (right st i) (setup i) (st i) (neighboursOf setup st (links i))) setup troubled states).mpr fun i _ => rfl)
    refine ⟨states', hs, every hs (fun i st => Reached (setup i) st ∧ st.average = (states i).average)
      (fun i => ⟨hr i, rfl⟩) fun i t ht => ⟨.taylor t rfl, ?_⟩⟩
    obtain ⟨t', ht', e⟩ := (zxh_average_partial he h0 h1 (hc i) (h i) (hk i)).2 (states i)
      (neighboursOf setup states (links i)) (left states i) (right states i) (hr i)
      (by simpa [neighboursOf] using hlinks i) (hrl states i)
    rw [ht'] at ht
    cases ht
    exact e

/-- C105: After `LiWanAi2020` on a grid all elements have their old averages, whichever were troubled. -/
theorem lwa_grid {roots : (m : ℕ) → Rule m} {epsilon kEpsilon kTrunc : ℝ} (he : 0 < epsilon) (hke : 0 ≤ kEpsilon)
    (exact : ∀ m, ExactTo (roots m).apply (2 * m + 1)) (hp : 1 ≤ p)
    (hc : ∀ i, (coordinate i).xLeft < (coordinate i).xRight) (h : ∀ i, Built (coordinate i) (setup i))
    (hk : ∀ i, (setup i).kind = .lobatto → p ≤ 5) (links : ι → List (ι × ℝ))
    (hlinks : ∀ i, 1 ≤ (links i).length ∧ (links i).length ≤ 2) (troubled : List ι) :
    (∀ states : ι → State p ℝ, (∀ i, Reached (setup i) (states i)) → ∃ states',
      reconstruct (fun st i => lwaNewScalar roots epsilon kEpsilon kTrunc (setup i) (st i) (neighboursOf setup st (links i)))
        setup troubled states = some states' ∧ ∀ i, Reached (setup i) (states' i) ∧ (states' i).average = (states i).average) ∧
    (∀ (states : ι → State p (Fin m → ℝ)) (left right : (ι → State p (Fin m → ℝ)) → ι → Matrix (Fin m) (Fin m) ℝ),
      (∀ i, Reached (setup i) (states i)) → (∀ st i, right st i * left st i = 1) → ∃ states',
      reconstruct (fun st i => lwaNewSystem roots epsilon kEpsilon kTrunc (left st i) (right st i) (setup i) (st i)
        (neighboursOf setup st (links i))) setup troubled states = some states' ∧
        ∀ i, Reached (setup i) (states' i) ∧ (states' i).average = (states i).average) := by
  refine ⟨fun states hr => ?_, fun states left right hr hrl => ?_⟩
  · obtain ⟨states', hs⟩ := Option.isSome_iff_exists.mp ((succeeds (fun st i => lwaNewScalar roots epsilon kEpsilon kTrunc
      (setup i) (st i) (neighboursOf setup st (links i))) setup troubled states).mpr fun i _ => by
        unfold lwaNewScalar
        rw [Option.isSome_map, lwa_defined exact (hc i) ((h i).sane (hc i)).2]
        exact ⟨hp, by simpa [neighboursOf] using hlinks i⟩)
    exact ⟨states', hs, every hs (fun i st => Reached (setup i) st ∧ st.average = (states i).average)
      (fun i => ⟨hr i, rfl⟩) fun i t ht => ⟨.taylor t rfl,
        (lwa_average (m := 0) he hke exact (hc i) (h i) (hk i)).1 _ _ t (hr i) ht⟩⟩
  · obtain ⟨states', hs⟩ := Option.isSome_iff_exists.mp ((succeeds (fun st i => lwaNewSystem roots epsilon kEpsilon kTrunc
      (left st i) (right st i) (setup i) (st i) (neighboursOf setup st (links i))) setup troubled states).mpr fun i _ => by
        unfold lwaNewSystem
        rw [Option.isSome_map, lwa_defined exact (hc i) ((h i).sane (hc i)).2]
        exact ⟨hp, by simpa [neighboursOf] using hlinks i⟩)
    exact ⟨states', hs, every hs (fun i st => Reached (setup i) st ∧ st.average = (states i).average)
      (fun i => ⟨hr i, rfl⟩) fun i t ht => ⟨.taylor t rfl,
        (lwa_average he hke exact (hc i) (h i) (hk i)).2 _ _ _ _ t (hr i) (hrl states i) ht⟩⟩

end Grid

/-! ### Lobatto nodes -/

/-- C104: On Lobatto nodes `ZhongXingHui2013` changes averages: two elements of degree 2, the troubled one
at rest, the neighbour with the parabola `(x - 1) ^ 2`. -/
theorem zxh_average_lobatto {epsilon wSmall : ℝ} (he : 0 < epsilon) (h0 : 0 < wSmall) (h1 : 2 * wSmall < 1) :
    ∃ (s s' : Setup 2) (st st' : State 2 ℝ) (t : Fin 3 → ℝ), Built (.linear 0 2) s ∧ Built (.linear 2 4) s' ∧
      Reached s st ∧ Reached s' st' ∧ zxhNewScalar epsilon wSmall s st [⟨s', st', 0⟩] = some t ∧
      (setTaylor s t).average ≠ st.average := by
  have hc : (Coordinate.linear 0 2).xLeft < (Coordinate.linear 0 2).xRight := by simp [Coordinate.xLeft, Coordinate.xRight]
  have hc' : (Coordinate.linear 2 4).xLeft < (Coordinate.linear 2 4).xRight := by
    simp only [Coordinate.xLeft, Coordinate.xRight]; norm_num
  obtain ⟨s, hs⟩ : ∃ s, onLobattoRoots 2 (.linear 0 2) = some s := by
    unfold onLobattoRoots
    exact lagrange_defined _ hc (lobatto_sound (m := 2) rfl).2.2.2.2.2.1.injective _
  obtain ⟨s', hs'⟩ : ∃ s, onLobattoRoots 2 (.linear 2 4) = some s := by
    unfold onLobattoRoots
    exact lagrange_defined _ hc' (lobatto_sound (m := 2) rfl).2.2.2.2.2.1.injective _
  have hB : Built (.linear 0 2) s := .lobatto hs
  have hB' : Built (.linear 2 4) s' := .lobatto hs'
  set st : State 2 ℝ := setTaylor s 0 with hst
  set st' : State 2 ℝ := setTaylor s' ![4, 4, 1] with hst'
  set b : Neighbour 2 ℝ := ⟨s', st', 0⟩ with hb
  refine ⟨s, s', st, st', _, hB, hB', .taylor _ rfl, .taylor _ rfl, rfl, ?_⟩
  have hval : b.value = fun x => (x - 1) ^ 2 := by
    funext x
    rw [hb, Neighbour.value, Setup.value, (hB'.sane hc').2]
    simp only [hst', setTaylor, taylorValue, taylorValues_eq, Coordinate.xCenter]
    rw [Fin.sum_univ_three]
    simp only [Fin.val_zero, Fin.val_one, Fin.val_two, Matrix.cons_val, smul_eq_mul]
    ring
  obtain ⟨rule, hr, hu⟩ := lobatto_cases hs
  obtain ⟨-, -, hk, hco, hi, hn, -⟩ := lagrange_sane (by simp) hc hu
  cases hr
  have hpts : ∀ f : Fin 3 → ℝ, s.integrator.integrateIndex f = 1 / 3 * f 0 + 4 / 3 * f 1 + 1 / 3 * f 2 := by
    intro f
    rw [hi, Integrator.integrateIndex_eq, Fin.sum_univ_three]
    simp [Rule.integrator, Coordinate.localToJacobian]
  have hp0 : s.points 0 = 0 := by rw [Setup.points, samplePoints, hn, hco]; simp [Coordinate.localToGlobal]
  have hp1 : s.points 1 = 1 := by rw [Setup.points, samplePoints, hn, hco]; simp [Coordinate.localToGlobal]
  have hp2 : s.points 2 = 2 := by rw [Setup.points, samplePoints, hn, hco]; simp [Coordinate.localToGlobal]; norm_num
  have hlen : s.coordinate.length = 2 := by rw [hco]; simp [Coordinate.length]
  have havg : st.average = 0 := by
    simp only [hst, setTaylor, mean, hk, hpts]
    simp [apply]
  have hthat : s.integrator.average b.value = 1 / 3 := by
    rw [hval, Integrator.average, hi, Integrator.integrate_eq, Fin.sum_univ_three]
    simp [Rule.integrator, Coordinate.localToJacobian, Coordinate.localToGlobal, Coordinate.length]
    norm_num
  have hbor : (zxhBorrow s st b).act (meanMoments (.linear 0 2)) = ((1 - 1 / 10 ^ 10) ^ 2 - 1) / 3 := by
    unfold zxhBorrow
    dsimp only
    rw [average_act hc hB (by intro; norm_num) (.approximate _ rfl), havg, hthat, hval]
    simp only [approximate, hk, setCoeff, mean, hpts, hlen, smul_eq_mul]
    rw [if_neg (show ¬(0 : Fin 3) = Fin.last 2 by decide), if_pos trivial, if_neg (show ¬(1 : Fin 3) = Fin.last 2 by decide),
      if_neg (show ¬(1 : Fin 3) = 0 by decide), if_pos (show (2 : Fin 3) = Fin.last 2 by decide), hp0, hp1, hp2]
    simp only [nudge]
    push_cast
    ring
  have hown : (own s st).act (meanMoments (.linear 0 2)) = 0 := by
    rw [average_act hc hB (by intro; norm_num) (.taylor _ rfl), havg]
  obtain ⟨hw, hco'⟩ := built_integrator hc hB
  have hsm : ∀ x : Candidate ℝ, x = own s st ∨ x = zxhBorrow s st b → 0 < (epsilon + zxhSmoothness x) ^ 2 := by
    intro x hx
    have : 0 ≤ zxhSmoothness x := by
      rcases hx with rfl | rfl
      · refine zxhSmoothness_nonneg (fun i => (hw i).le) ?_
        rw [show (own s st).integrator = s.integrator from rfl, hco']; simp [Coordinate.length]
      · refine zxhSmoothness_nonneg (fun i => (hw i).le) ?_
        rw [show (zxhBorrow s st b).integrator = s.integrator from rfl, hco']; simp [Coordinate.length]
    positivity
  rw [havg, ← average_act hc hB (by intro; norm_num) (.taylor _ rfl)]
  have e : (own s (setTaylor s fun l : Fin 3 => zxhScalar epsilon wSmall (zxhCandidates s st [b]) l)).act
      (meanMoments (.linear 0 2)) =
      ∑ l ∈ Finset.range 3, meanMoments (.linear 0 2) l * zxhScalar epsilon wSmall (zxhCandidates s st [b]) l := by
    rw [Finset.sum_range]; rfl
  rw [e]
  unfold zxhScalar combine
  rw [zip_functional (p := 2) _ _ _ _ (by intro x hx; simp [zxhCandidates] at hx; rcases hx with rfl | rfl <;> exact le_rfl)]
  simp only [zxhCandidates, List.map_cons, List.map_nil, List.mapIdx_cons, List.mapIdx_nil, List.zipWith_cons_cons,
    List.zipWith_nil_left, List.sum_cons, List.sum_nil, hown, hbor, zero_mul, zero_add, add_zero, List.length_cons,
    List.length_nil, if_true]
  have p1 := hsm _ (.inl rfl)
  have p2 := hsm _ (.inr rfl)
  have hz : (((1 : ℕ) : ℝ) + 1 - 1) * wSmall = wSmall := by push_cast; ring
  refine mul_ne_zero (by norm_num) (div_ne_zero (div_pos ?_ p2).ne' (add_pos (div_pos ?_ p1) (div_pos ?_ p2)).ne')
  · simpa using h0
  · push_cast; linarith
  · simpa using h0

/-! ### The slopes of Li, Wang and Ren -/

section Slopes
variable {p : ℕ} {c : Coordinate} {s : Setup p} {roots : (m : ℕ) → Rule m}

/-- C105: The borrowed polynomial is linear with the own average; its slope is that of the best fit in the
neighbour (among the lines through the own average at the own centre) times the norm of the basis function. -/
theorem lwa_slope (exact : ∀ m, ExactTo (roots m).apply (2 * m + 1)) (hc : c.xLeft < c.xRight) (h : Built c s)
    (st : State p ℝ) (b : Neighbour p ℝ) :
    ∃ cand slope, lwaBorrow roots s st b = some cand ∧
      (∀ x, cand.act (fun l => (x - c.xCenter) ^ l) = st.average + slope * c.globalToLocal x) ∧
      ∀ best, b.integrator.innerProduct c.globalToLocal c.globalToLocal * best =
          b.integrator.innerProduct c.globalToLocal (fun x => b.value x - st.average) →
        slope = b.integrator.norm2 c.globalToLocal * best := by
  obtain ⟨s1, hs1⟩ := modal_defined hc (roots 1)
  have hco := (h.sane hc).2
  have hphi : (fun x => Vincent.legendre 1 (c.globalToLocal x)) = c.globalToLocal := by
    funext x; simp [Vincent.legendre]
  refine ⟨_, (b.integrator.norm2 fun x => Vincent.legendre 1 (c.globalToLocal x))⁻¹ •
    b.integrator.integrate fun x => Vincent.legendre 1 (c.globalToLocal x) • (b.value x - st.average),
    by unfold lwaBorrow; rw [hco, hs1]; rfl, fun x => ?_, fun best hbest => ?_⟩
  · dsimp only
    rw [← value_act (modal_sane hc hs1).2.2.1, value_eq hc (.modal _ (exact 1) hs1) (.coeff _ rfl), Fin.sum_univ_two,
      (modal_sane hc hs1).2.2.2.2.2, (modal_sane hc hs1).2.2.2.2.2]
    simp only [setCoeff, if_true, smul_eq_mul]
    rw [if_neg (by decide)]
    simp only [Fin.val_zero, Fin.val_one, Vincent.legendre]
    ring
  · rw [hphi]
    have e : (fun x => Vincent.legendre 1 (c.globalToLocal x) • (b.value x - st.average)) =
        fun x => c.globalToLocal x * (b.value x - st.average) := by
      funext x; simp [Vincent.legendre]
    rw [e, smul_eq_mul]
    have e2 : b.integrator.integrate (fun x => c.globalToLocal x * (b.value x - st.average)) =
        b.integrator.innerProduct c.globalToLocal c.globalToLocal * best := hbest.symm
    rw [e2]
    have e3 : b.integrator.norm2 c.globalToLocal = √(b.integrator.innerProduct c.globalToLocal c.globalToLocal) := by
      unfold Integrator.norm2 Integrator.innerProduct
      congr 2
      funext x
      rw [sq_abs, sq]
    rw [e3]
    generalize b.integrator.innerProduct c.globalToLocal c.globalToLocal = q
    rw [← mul_assoc, ← div_eq_inv_mul, Real.div_sqrt]

/-- C105: So `LiWanAi2020` does not leave linear functions alone: on a uniform grid of width `h` the function
`x` is changed at degree one, unless `h = 3 / 13`. -/
theorem lwa_linear_changed {epsilon kEpsilon kTrunc h : ℝ} (he : 0 < epsilon) (hke : 0 ≤ kEpsilon) (hh : 0 < h)
    (hne : h ≠ 3 / 13) (exact : ∀ m, ExactTo (roots m).apply (2 * m + 1)) :
    ∃ (s s' : Setup 1) (st st' : State 1 ℝ) (t : Fin 2 → ℝ), Built (.linear 0 h) s ∧ Built (.linear (-h) 0) s' ∧
      Reached s st ∧ Reached s' st' ∧ (∀ x, s.value st x = x) ∧ (∀ x, s'.value st' x = x) ∧
      lwaNewScalar roots epsilon kEpsilon kTrunc s st [⟨s', st', 0⟩] = some t ∧ s.value (setTaylor s t) h ≠ h := by
  have hc : (Coordinate.linear 0 h).xLeft < (Coordinate.linear 0 h).xRight := by simpa [Coordinate.xLeft, Coordinate.xRight] using hh
  have hc' : (Coordinate.linear (-h) 0).xLeft < (Coordinate.linear (-h) 0).xRight := by
    simpa [Coordinate.xLeft, Coordinate.xRight] using hh
  obtain ⟨s, hs⟩ := modal_defined hc (roots 1)
  obtain ⟨s', hs'⟩ := modal_defined hc' (roots 1)
  have hB : Built (.linear 0 h) s := .modal _ (exact 1) hs
  have hB' : Built (.linear (-h) 0) s' := .modal _ (exact 1) hs'
  obtain ⟨-, hk, hco, hi, -, hb⟩ := modal_sane hc hs
  obtain ⟨-, hk', hco', hi', -, hb'⟩ := modal_sane hc' hs'
  set st : State 1 ℝ := setCoeff s ![h / 2, h / 2] with hst
  set st' : State 1 ℝ := setCoeff s' ![-h / 2, h / 2] with hst'
  set b : Neighbour 1 ℝ := ⟨s', st', 0⟩ with hbdef
  have hv : ∀ x, s.value st x = x := by
    intro x
    rw [value_eq hc hB (.coeff _ rfl), Fin.sum_univ_two, hb, hb]
    simp [hst, setCoeff, Vincent.legendre, Coordinate.globalToLocal]
    field_simp; ring
  have hv' : ∀ x, s'.value st' x = x := by
    intro x
    rw [value_eq hc' hB' (.coeff _ rfl), Fin.sum_univ_two, hb', hb']
    simp [hst', setCoeff, Vincent.legendre, Coordinate.globalToLocal]
    field_simp; ring
  have havg : st.average = h / 2 := by
    simp only [hst, setCoeff, mean, hk]; rfl
  obtain ⟨cand, slope, hcand, hcv, hslope⟩ := lwa_slope exact hc hB st b
  have hbv : b.value = fun x => x := by funext x; simp [hbdef, Neighbour.value, hv']
  have hq : b.integrator.innerProduct (Coordinate.linear 0 h).globalToLocal (Coordinate.linear 0 h).globalToLocal = 13 * h / 3 := by
    have e0 : ∀ f : ℝ → ℝ, b.integrator.integrate f = s'.integrator.integrate f := by
      intro f
      rw [Integrator.integrate_eq, Integrator.integrate_eq]
      simp [Neighbour.integrator, hbdef]
    have e1 := integrate_exact (exact 1) (.linear (-h) 0) ((C (2 / h) * X - 1) ^ 2) (by
      refine natDegree_pow_le.trans ?_
      have : (C (2 / h) * X - 1 : ℝ[X]).natDegree ≤ 1 := by compute_degree
      omega)
    simp only [eval_pow, eval_sub, eval_mul, eval_C, eval_X, eval_one, Coordinate.xLeft, Coordinate.xRight] at e1
    unfold Integrator.innerProduct
    rw [e0, hi']
    have e2 : (fun x => (Coordinate.linear 0 h).globalToLocal x * (Coordinate.linear 0 h).globalToLocal x) =
        fun x => (2 / h * x - 1) ^ 2 := by
      funext x
      simp [Coordinate.globalToLocal]
      field_simp
    rw [e2, e1]
    have hder : ∀ x : ℝ, HasDerivAt (fun x => h / 6 * (2 / h * x - 1) ^ 3) ((2 / h * x - 1) ^ 2) x := by
      intro x
      have := ((((hasDerivAt_id x).const_mul (2 / h)).sub_const 1).pow 3).const_mul (h / 6)
      refine this.congr_deriv ?_
      simp
      field_simp
      ring
    rw [intervalIntegral.integral_eq_sub_of_hasDerivAt (fun x _ => hder x) (Continuous.intervalIntegrable (by fun_prop) _ _)]
    rw [show 2 / h * -h = -2 by field_simp, mul_zero]
    ring
  have hsl : slope = √(13 * h / 3) * (h / 2) := by
    have := hslope (h / 2) (by
      have e : (fun x => b.value x - st.average) = fun x => (h / 2) * (Coordinate.linear 0 h).globalToLocal x := by
        funext x
        rw [hbv, havg]
        simp [Coordinate.globalToLocal]
        field_simp
      rw [e]
      unfold Integrator.innerProduct
      rw [Integrator.integrate_eq, Integrator.integrate_eq, Finset.sum_mul]
      exact Finset.sum_congr rfl fun i _ => by simp only [smul_eq_mul]; ring)
    rw [this]
    congr 1
    unfold Integrator.norm2
    rw [← hq]
    unfold Integrator.innerProduct
    congr 2
    funext x
    rw [sq_abs, sq]
  have hr1 : √(13 * h / 3) ≠ 1 := by
    intro hr
    have : 13 * h / 3 = 1 := by
      have := Real.sq_sqrt (show (0 : ℝ) ≤ 13 * h / 3 by positivity)
      rw [hr] at this; linarith
    exact hne (by linarith)
  have hlow : (truncated 1 le_rfl s st).act (fun l => (h - (Coordinate.linear 0 h).xCenter) ^ l) = h := by
    have : (truncated 1 le_rfl s st).act (fun l => (h - (Coordinate.linear 0 h).xCenter) ^ l) =
        (own s st).act (fun l => (h - (Coordinate.linear 0 h).xCenter) ^ l) := rfl
    rw [this, ← value_act hco, hv]
  have hfirst : cand.act (fun l => (h - (Coordinate.linear 0 h).xCenter) ^ l) = h / 2 + √(13 * h / 3) * (h / 2) := by
    rw [hcv, havg, hsl]
    simp [Coordinate.globalToLocal]
    field_simp
    ring
  have hdeg : cand.degree = 1 := by
    unfold lwaBorrow at hcand
    obtain ⟨s1, -, rfl⟩ := Option.map_eq_some_iff.mp hcand
    rfl
  have hcs : lwaCandidates roots s st [b] = some ⟨[], truncated 1 le_rfl s st, cand, none⟩ := by
    unfold lwaCandidates lwaLegendre
    rw [dif_pos le_rfl, hk]
    simp [hcand]
  refine ⟨s, s', st, st', _, hB, hB', .coeff _ rfl, .coeff _ rfl, hv, hv', by
    unfold lwaNewScalar; rw [hcs]; rfl, ?_⟩
  rw [value_act hco]
  have e : ∀ f : ℕ → ℝ, (own s (setTaylor s fun l : Fin 2 => f l)).act (fun l => (h - (Coordinate.linear 0 h).xCenter) ^ l) =
      ∑ l ∈ Finset.range 2, (h - (Coordinate.linear 0 h).xCenter) ^ l * f l := by
    intro f
    rw [Finset.sum_range]; rfl
  rw [e]
  unfold lwaScalar combine
  rw [zip_functional (p := 1) _ _ _ _ (by
    intro x hx
    simp at hx
    rcases hx with rfl | rfl
    · exact le_rfl
    · omega)]
  simp only [highWeights, List.length_nil, if_true, List.nil_append, Option.toList_none, List.append_nil, List.zipWith_cons_cons,
    List.zipWith_nil_left, List.sum_cons, List.sum_nil, hlow, hfirst, add_zero, Option.getD_none]
  generalize lwaSmoothness (truncated 1 le_rfl s st) = β
  generalize lwaSmoothness cand = β'
  have hw1 : 0 < 10 / (β ^ 2 + (epsilon + kEpsilon * (β' ^ 2 + β' ^ 2) / 2)) := by positivity
  have hw2 : 0 < 1 / (β' ^ 2 + (epsilon + kEpsilon * (β' ^ 2 + β' ^ 2) / 2)) := by positivity
  generalize 10 / (β ^ 2 + (epsilon + kEpsilon * (β' ^ 2 + β' ^ 2) / 2)) = w1 at hw1
  generalize 1 / (β' ^ 2 + (epsilon + kEpsilon * (β' ^ 2 + β' ^ 2) / 2)) = w2 at hw2
  generalize √(13 * h / 3) = r at hr1
  intro heq
  have hS : w1 + w2 ≠ 0 := by positivity
  field_simp at heq
  have : h * w2 * (r - 1) = 0 := by nlinarith
  rcases mul_eq_zero.mp this with h' | h'
  · rcases mul_eq_zero.mp h' with h' | h' <;> linarith
  · exact hr1 (by linarith)

/-- C105: At degree 2 the truncation parameter of `LiWanAi2020` has no effect: leaving the loop early and
running it to its end are told apart by a counter that is the same in both cases. -/
theorem lwa_truncation_idle (epsilon kEpsilon kTrunc kTrunc' : ℝ) (s : Setup 2) (st : State 2 ℝ) (bs : List (Neighbour 2 ℝ)) :
    lwaNewScalar roots epsilon kEpsilon kTrunc s st bs = lwaNewScalar roots epsilon kEpsilon kTrunc' s st bs := by
  unfold lwaNewScalar
  cases hcs : lwaCandidates roots s st bs with
  | none => rfl
  | some cs =>
    have hone : ∃ x, cs.high = [x] := by
      unfold lwaCandidates at hcs
      rw [dif_pos (by norm_num)] at hcs
      obtain ⟨l, hl, hcs⟩ := Option.bind_eq_some_iff.mp hcs
      dsimp only at hcs
      match bs, hcs with
      | [b], hcs =>
        obtain ⟨y, hy, rfl⟩ := Option.map_eq_some_iff.mp hcs
        exact ⟨_, rfl⟩
      | [b, b'], hcs =>
        obtain ⟨y, hy, hcs⟩ := Option.bind_eq_some_iff.mp hcs
        obtain ⟨y', hy', rfl⟩ := Option.map_eq_some_iff.mp hcs
        exact ⟨_, rfl⟩
    obtain ⟨x, hx⟩ := hone
    have hw : ∀ k μ, highWeights epsilon k μ cs.high = highWeights epsilon 0 0 cs.high := by
      intro k μ
      rw [hx]
      simp [highWeights]
    simp only [Option.map_some]
    congr 1
    funext l
    unfold lwaScalar
    simp only [hw kTrunc, hw kTrunc']

end Slopes

/-! ### Examples -/

/-- The hypotheses of the grid theorems are met by a periodic grid of two elements of any positive degree with
a step in it, with the parameters of the constructors. -/
example (p : ℕ) (hp : 1 ≤ p) : ∃ (roots : (m : ℕ) → Rule m) (setup : Fin 2 → Setup p) (states : Fin 2 → State p ℝ)
    (states' states'' : Fin 2 → State p ℝ),
    (states 0).average = 0 ∧ (states 1).average = 1 ∧
    reconstruct (fun st i => zxhNewScalar (1 / 10 ^ 6) (1 / 1000) (setup i) (st i)
      (neighboursOf setup st (if i = 0 then [(1, -2), (1, 0)] else [(0, 0), (0, 2)]))) setup [0, 1] states = some states' ∧
    reconstruct (fun st i => lwaNewScalar roots (1 / 10 ^ 16) (1 / 10) 1 (setup i) (st i)
      (neighboursOf setup st (if i = 0 then [(1, -2), (1, 0)] else [(0, 0), (0, 2)]))) setup [0, 1] states = some states'' ∧
    (states' 0).average = 0 ∧ (states' 1).average = 1 ∧ (states'' 0).average = 0 ∧ (states'' 1).average = 1 := by
  obtain ⟨roots, exact⟩ := roots_exist
  set co : Fin 2 → Coordinate := ![.linear 0 1, .linear 1 2]
  have hc : ∀ i, (co i).xLeft < (co i).xRight := by
    intro i; fin_cases i <;> simp [co, Coordinate.xLeft, Coordinate.xRight]
  choose setup hs using fun i => modal_defined (hc i) (roots p)
  have hk : ∀ i, (setup i).kind = .modal := fun i => (modal_sane (hc i) (hs i)).2.1
  have hB : ∀ i, Built (co i) (setup i) := fun i => .modal _ (exact p) (hs i)
  set states : Fin 2 → State p ℝ := fun i => setCoeff (setup i) fun k => if k = 0 then (if i = 0 then 0 else 1) else 1
  have hr : ∀ i, Reached (setup i) (states i) := fun i => .coeff _ rfl
  obtain ⟨states', e', h'⟩ := (zxh_grid_partial (m := 0) (epsilon := 1 / 10 ^ 6) (wSmall := 1 / 1000) (by norm_num) (by norm_num)
    (by norm_num) hc hB (fun i => by rw [hk]; simp) (fun i => if i = 0 then [(1, -2), (1, 0)] else [(0, 0), (0, 2)])
    (by intro i; fin_cases i <;> simp) [0, 1]).1 states hr
  obtain ⟨states'', e'', h''⟩ := (lwa_grid (m := 0) (epsilon := 1 / 10 ^ 16) (kEpsilon := 1 / 10) (kTrunc := 1) (by norm_num)
    (by norm_num) exact hp hc hB (fun i => by rw [hk]; simp) (fun i => if i = 0 then [(1, -2), (1, 0)] else [(0, 0), (0, 2)])
    (by intro i; fin_cases i <;> simp) [0, 1]).1 states hr
  have a0 : (states 0).average = 0 := by simp only [states, setCoeff, mean, hk, if_true]
  have a1 : (states 1).average = 1 := by simp only [states, setCoeff, mean, hk, if_true]; rfl
  exact ⟨roots, setup, states, states', states'', a0, a1, e', e'', by rw [(h' 0).2, a0], by rw [(h' 1).2, a1],
    by rw [(h'' 0).2, a0], by rw [(h'' 1).2, a1]⟩

end MiniCFD.PyLimiter
