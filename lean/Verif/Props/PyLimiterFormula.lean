import Verif.Props.PyLimiterCases
import Verif.Lemmas.PyFRDG
import Verif.Lemmas.Taylor
import Verif.Spec.PyLimiter

/-! # C104, C105: what the limiters compute, as integrals of the candidates -/

namespace MiniCFD.PyLimiter

open MiniCFD.PyQuad MiniCFD.PyExpansion MiniCFD.PyFR Polynomial
open MiniCFD.Spec.Gauss (ExactTo)
open MiniCFD.Spec.PyLimiter

variable {p : ℕ} {c : Coordinate} {s : Setup p}

/-- The norms of the derivatives are integrals, on all kinds of nodes. -/
theorem norm_integral (hc : c.xLeft < c.xRight) (h : Built c s) (hl : s.kind = .lobatto → p ≤ 5) {st : State p ℝ}
    (hr : Reached s st) {k : ℕ} (hk : 1 ≤ k) (hkp : k ≤ p) :
    (own s st).norm k = ∫ x in c.xLeft..c.xRight, iteratedDeriv k (s.value st) x ^ 2 := by
  have hco := (built_integrator hc h).2
  have hd : ∀ x, (own s st).derivative x k = iteratedDeriv k (s.value st) x := by
    intro x
    have := ((value_derivatives hc h hr x).2 k).2.1
    rw [taylorDerivative, if_neg (by omega), if_pos hkp, if_pos hkp] at this
    have e : s.coordinate = s.integrator.coordinate := by rw [hco, (h.sane hc).2]
    rw [e] at this
    exact Option.some.inj this
  have hv : s.value st = fun x => (tpoly s.coordinate.xCenter st.taylor).eval x := by
    funext x
    rw [tpoly_eval]
    rfl
  have hU := tpoly_natDegree s.coordinate.xCenter st.taylor
  rw [hv] at hd ⊢
  simp only [Taylor.iteratedDeriv_poly] at hd ⊢
  have h1 : (derivative^[k] (tpoly s.coordinate.xCenter st.taylor)).natDegree ≤ p - k :=
    (natDegree_iterate_derivative _ _).trans (by omega)
  have := integrate_poly hc h hl (derivative^[k] (tpoly s.coordinate.xCenter st.taylor) ^ 2)
    (.inl (natDegree_pow_le.trans (by omega)))
  simp only [eval_pow] at this
  rw [← this, Candidate.norm]
  simp only [hd]
  rfl

/-- C104: the smoothness of Zhong and Shu. -/
theorem zxh_smoothness (hc : c.xLeft < c.xRight) (h : Built c s) (hl : s.kind = .lobatto → p ≤ 5) {st : State p ℝ}
    (hr : Reached s st) : zxhSmoothness (own s st) = smoothness p c.xLeft c.xRight (s.value st) := by
  have hco := (built_integrator hc h).2
  have hlen : (own s st).integrator.coordinate.length = c.xRight - c.xLeft := by
    rw [show (own s st).integrator = s.integrator from rfl, hco, c.eq_linear.1]
  rw [zxhSmoothness, smoothness, hlen, Finset.range_eq_Ico, Finset.sum_Ico_add' (fun d => (own s st).norm d *
    ((c.xRight - c.xLeft) ^ (2 * d - 1) / factorials d ^ 2)) 0 (own s st).degree 1]
  refine Finset.sum_congr (by ext k; simp [own]) fun k hk => ?_
  rw [Finset.mem_Icc] at hk
  simp only [div_pow]
  rw [norm_integral hc h hl hr hk.1 hk.2, intervalIntegral.integral_div, factorials_eq]
  ring

/-- C105: the smoothness of Li, Wang and Ren. -/
theorem lwa_smoothness (hc : c.xLeft < c.xRight) (h : Built c s) (hl : s.kind = .lobatto → p ≤ 5) {st : State p ℝ}
    (hr : Reached s st) : lwaSmoothness (own s st) = smoothness' p c.xLeft c.xRight (s.value st) := by
  have hco := (built_integrator hc h).2
  have hlen : (own s st).integrator.coordinate.length = c.xRight - c.xLeft := by
    rw [show (own s st).integrator = s.integrator from rfl, hco, c.eq_linear.1]
  rw [lwaSmoothness, smoothness', Finset.range_eq_Ico, Finset.sum_Ico_add' (fun d => lwaNorm (own s st) d) 0
    (own s st).degree 1]
  refine Finset.sum_congr (by ext k; simp [own]) fun k hk => ?_
  rw [Finset.mem_Icc] at hk
  simp only [div_pow (iteratedDeriv _ _ _)]
  rw [lwaNorm, hlen, norm_integral hc h hl hr hk.1 hk.2, intervalIntegral.integral_div, factorials_eq]
  ring

private theorem zip_sum (x S : ℝ) (μ : ℕ → ℝ) (F : Candidate ℝ → ℝ → ℝ) : ∀ (ws : List ℝ) (cs : List (Candidate ℝ)),
    (∀ c ∈ cs, c.act μ = F c x) →
    (List.zipWith (fun w c => c.act μ * (w / S)) ws cs).sum = (List.zipWith (fun w f => w * f x) ws (cs.map F)).sum / S
  | [], _, _ => by simp
  | _ :: _, [], _ => by simp
  | w :: ws, c :: cs, h => by
    simp only [List.zipWith_cons_cons, List.map_cons, List.sum_cons]
    rw [zip_sum x S μ F ws cs fun c hc => h c (List.mem_cons_of_mem _ hc), h c List.mem_cons_self]
    ring

/-- C104: The new solution of a scalar equation is the weighted mean of the old one and of the neighbours' polynomials
moved to the own mean, with weights from the smoothness of each. -/
theorem zxh_formula_partial (epsilon wSmall : ℝ) (hc : c.xLeft < c.xRight) (h : Built c s) (hk : s.kind ≠ .lobatto)
    {st : State p ℝ} (hr : Reached s st) (bs : List (Neighbour p ℝ)) :
    let fs := s.value st :: bs.map fun b x =>
      b.value x + (mean c.xLeft c.xRight (s.value st) - mean c.xLeft c.xRight b.value)
    let ws := fs.mapIdx fun i f => (if i = 0 then 1 - bs.length * wSmall else wSmall) /
      (epsilon + smoothness p c.xLeft c.xRight f) ^ 2
    ∃ t, zxhNewScalar epsilon wSmall s st bs = some t ∧ ∀ x, s.value (setTaylor s t) x = weighted ws fs x := by
  intro fs ws
  have hl : s.kind = .lobatto → p ≤ 5 := fun e => absurd e hk
  have hne : c.xRight - c.xLeft ≠ 0 := by linarith
  have hco := (h.sane hc).2
  refine ⟨_, rfl, fun x => ?_⟩
  have e0 : s.value (setTaylor s fun l => zxhScalar epsilon wSmall (zxhCandidates s st bs) l) x =
      ∑ l ∈ Finset.range (p + 1), (x - c.xCenter) ^ l * zxhScalar epsilon wSmall (zxhCandidates s st bs) l := by
    rw [value_act hco, Finset.sum_range]
    rfl
  have hmean : mean c.xLeft c.xRight (s.value st) = st.average := by
    rw [Spec.PyLimiter.mean, ← average_eq hc h hl hr, smul_eq_mul, inv_mul_cancel_left₀ hne]
  have hb : ∀ b : Neighbour p ℝ, s.integrator.average b.value = mean c.xLeft c.xRight b.value := by
    intro b
    obtain ⟨v, hv⟩ := neighbour_polynomial b 0
    have e : b.value = polynomial v := by funext x; rw [← hv, add_zero]
    have := integrator_polynomial hc h hl v
    rw [Spec.PyLimiter.mean, e, ← this, smul_eq_mul, inv_mul_cancel_left₀ hne]
  let F : Candidate ℝ → ℝ → ℝ := fun t x => t.act fun l => (x - c.xCenter) ^ l
  have hF : (zxhCandidates s st bs).map F = fs := by
    simp only [zxhCandidates, List.map_cons, List.map_map, fs]
    congr 1
    · funext y
      rw [value_act hco]
    · refine List.map_congr_left fun b _ => ?_
      funext y
      simp only [Function.comp, F]
      rw [borrow_value hc h hk, hmean, hb]
  have hS : ∀ t ∈ zxhCandidates s st bs, zxhSmoothness t = smoothness p c.xLeft c.xRight (F t) := by
    intro t ht
    obtain ⟨st', hr', rfl⟩ : ∃ st' : State p ℝ, Reached s st' ∧ t = own s st' := by
      simp only [zxhCandidates, List.mem_cons, List.mem_map] at ht
      rcases ht with rfl | ⟨b, _, rfl⟩
      · exact ⟨st, hr, rfl⟩
      · exact ⟨_, .approximate _ rfl, rfl⟩
    rw [zxh_smoothness hc h hl hr']
    congr 1
    funext y
    rw [value_act hco]
  have hws : ((zxhCandidates s st bs).mapIdx fun i t =>
      (if i = 0 then 1 - (((zxhCandidates s st bs).length : ℝ) - 1) * wSmall else wSmall) /
        (epsilon + zxhSmoothness t) ^ 2) = ws := by
    simp only [ws, ← hF]
    refine List.ext_getElem (by simp) fun i h1 h2 => ?_
    simp only [List.getElem_mapIdx, List.getElem_map]
    rw [hS _ (List.getElem_mem _)]
    simp [zxhCandidates]
  rw [e0]
  unfold zxhScalar combine
  rw [hws, zip_functional _ _ _ _ (by
    intro t ht
    simp only [zxhCandidates, List.mem_cons, List.mem_map] at ht
    rcases ht with rfl | ⟨b, _, rfl⟩ <;> exact le_rfl), zip_sum x ws.sum _ F _ _ (fun t _ => rfl), hF]
  rfl

/-- C105: The slope that is borrowed, with the integrals over the neighbour where it appears to be: moved by the shift
across a periodic boundary. -/
theorem lwa_slope_integrals {roots : (m : ℕ) → Rule m} (exact : ∀ m, ExactTo (roots m).apply (2 * m + 1))
    (hc : c.xLeft < c.xRight) (h : Built c s) (st : State p ℝ) {c' : Coordinate} (hc' : c'.xLeft < c'.xRight)
    (b : Neighbour p ℝ) (hb : Built c' b.setup) (hp : 1 ≤ p) (hl : b.setup.kind = .lobatto → 2 ≤ p ∧ p ≤ 5) :
    ∃ cand slope, lwaBorrow roots s st b = some cand ∧
      (∀ x, cand.act (fun l => (x - c.xCenter) ^ l) = st.average + slope * c.globalToLocal x) ∧
      slope * √(∫ x in (c'.xLeft + b.shift)..(c'.xRight + b.shift), c.globalToLocal x ^ 2) =
        ∫ x in (c'.xLeft + b.shift)..(c'.xRight + b.shift), c.globalToLocal x * (b.value x - st.average) := by
  obtain ⟨cand, slope, h1, h2, h3⟩ := lwa_slope exact hc h st b
  have key : ∀ W : ℝ[X], W.natDegree ≤ p + 1 → b.integrator.integrate (fun x => W.eval x) =
      ∫ x in (c'.xLeft + b.shift)..(c'.xRight + b.shift), W.eval x := by
    intro W hW
    have hd : (W.comp (X + C b.shift)).natDegree ≤ p + 1 := by rwa [natDegree_comp, natDegree_X_add_C, mul_one]
    have := integrate_poly hc' hb (fun e => (hl e).2) (W.comp (X + C b.shift)) (by
      by_cases e : b.setup.kind = .lobatto
      · left
        have := (hl e).1
        omega
      · right
        exact ⟨by omega, e⟩)
    simp only [eval_comp, eval_add, eval_X, eval_C] at this
    rw [intervalIntegral.integral_comp_add_right (fun x => W.eval x)] at this
    rw [← this]
    simp only [Integrator.integrate_eq]
    rfl
  have hphi : ∀ x, (localPoly c).eval x = c.globalToLocal x := localPoly_eval c
  have hphid : (localPoly c).natDegree ≤ 1 := by
    have := comp_local_degree c X (natDegree_X_le)
    rwa [X_comp] at this
  have hq : b.integrator.innerProduct c.globalToLocal c.globalToLocal =
      ∫ x in (c'.xLeft + b.shift)..(c'.xRight + b.shift), c.globalToLocal x ^ 2 := by
    have := key (localPoly c ^ 2) (natDegree_pow_le.trans (by omega))
    simp only [eval_pow, hphi] at this
    rw [← this]
    simp only [Integrator.innerProduct, sq]
  have hv : b.value = fun x => (tpoly (b.setup.coordinate.xCenter + b.shift) b.state.taylor).eval x := by
    funext x
    rw [tpoly_eval]
    simp only [Neighbour.value, Setup.value, taylorValue, taylorValues_eq, smul_eq_mul]
    refine Finset.sum_congr rfl fun l _ => ?_
    congr 2
    ring
  have hr : b.integrator.innerProduct c.globalToLocal (fun x => b.value x - st.average) =
      ∫ x in (c'.xLeft + b.shift)..(c'.xRight + b.shift), c.globalToLocal x * (b.value x - st.average) := by
    have hd := tpoly_natDegree (b.setup.coordinate.xCenter + b.shift) b.state.taylor
    have := key (localPoly c * (tpoly (b.setup.coordinate.xCenter + b.shift) b.state.taylor - C st.average))
      (natDegree_mul_le.trans (by
        have := (natDegree_sub_C (p := tpoly (b.setup.coordinate.xCenter + b.shift) b.state.taylor) (a := st.average)).le
        omega))
    simp only [eval_mul, eval_sub, eval_C, hphi] at this
    rw [hv, ← this]
    rfl
  refine ⟨cand, slope, h1, h2, ?_⟩
  have hpos : 0 < ∫ x in (c'.xLeft + b.shift)..(c'.xRight + b.shift), c.globalToLocal x ^ 2 := by
    have hne : localPoly c ≠ 0 := by
      intro e
      have := hphi c.xRight
      rw [e, eval_zero, (local_ends hc).2] at this
      norm_num at this
    have := integral_sq_pos (a := c'.xLeft + b.shift) (b := c'.xRight + b.shift) (by linarith) hne
    simpa only [hphi] using this
  have hs := h3 ((b.integrator.innerProduct c.globalToLocal fun x => b.value x - st.average) /
    b.integrator.innerProduct c.globalToLocal c.globalToLocal) (by rw [hq]; field_simp)
  have e3 : b.integrator.norm2 c.globalToLocal = √(b.integrator.innerProduct c.globalToLocal c.globalToLocal) := by
    unfold Integrator.norm2 Integrator.innerProduct
    congr 2
    funext x
    rw [sq_abs, sq]
  rw [e3, hr, hq] at hs
  rw [hs]
  have hsq := Real.mul_self_sqrt hpos.le
  rw [mul_right_comm, hsq]
  field_simp

section Grids
variable {ι : Type} [DecidableEq ι] {setup : ι → Setup p} {coordinate : ι → Coordinate}

/-- C104: Where each element and its neighbours, seen across the periodic boundary, hold the same polynomial, the
limiter leaves the whole grid alone. -/
theorem zxh_grid_reproduces_partial {epsilon wSmall : ℝ} (he : 0 < epsilon) (h0 : 0 < wSmall) (h1 : 2 * wSmall < 1)
    (hc : ∀ i, (coordinate i).xLeft < (coordinate i).xRight) (h : ∀ i, Built (coordinate i) (setup i))
    (hk : ∀ i, (setup i).kind ≠ .lobatto) (links : ι → List (ι × ℝ)) (hlinks : ∀ i, (links i).length ≤ 2) (troubled : List ι)
    (states : ι → State p ℝ) (hr : ∀ i, Reached (setup i) (states i))
    (same : ∀ i ∈ troubled, ∀ jt ∈ links i, ∀ x, (setup jt.1).value (states jt.1) (x - jt.2) = (setup i).value (states i) x) :
    ∃ states', reconstruct (fun st i => zxhNewScalar epsilon wSmall (setup i) (st i) (neighboursOf setup st (links i)))
      setup troubled states = some states' ∧ ∀ i, (setup i).value (states' i) = (setup i).value (states i) := by
  obtain ⟨states', hs⟩ := Option.isSome_iff_exists.mp ((succeeds (fun st i => zxhNewScalar epsilon wSmall (setup i) (st i)
    (neighboursOf setup st (links i))) setup troubled states).mpr fun i _ => rfl)
  refine ⟨states', hs, fun i => ?_⟩
  obtain ⟨ha, hb⟩ := simultaneous _ setup hs i
  by_cases hi : i ∈ troubled
  · obtain ⟨t, e, e'⟩ := hb hi
    obtain ⟨t', ht', et⟩ := (zxh_reproduces_partial (m := 0) he h0 h1 (hc i) (h i) (hk i)).1 (states i)
      (neighboursOf setup states (links i)) (hr i) (by simpa [neighboursOf] using hlinks i) (by
        intro b hb'
        simp only [neighboursOf, List.mem_map] at hb'
        obtain ⟨jt, hjt, rfl⟩ := hb'
        funext x
        exact same i hi jt hjt x)
    rw [ht'] at e
    cases e
    rw [e', et]
  · rw [ha hi]

/-- A periodic grid of one length: the linear function `x`, seen across the boundary, is not the same polynomial, but
a constant is. -/
example {epsilon wSmall : ℝ} (he : 0 < epsilon) (h0 : 0 < wSmall) (h1 : 2 * wSmall < 1) :
    ∃ (setup : Fin 2 → Setup 1) (states states' : Fin 2 → State 1 ℝ),
      reconstruct (fun st i => zxhNewScalar epsilon wSmall (setup i) (st i)
        (neighboursOf setup st (if i = 0 then [(1, -2), (1, 0)] else [(0, 0), (0, 2)]))) setup [0, 1] states = some states' ∧
      ∀ i x, (setup i).value (states' i) x = 3 := by
  obtain ⟨roots, exact⟩ := roots_exist
  set co : Fin 2 → Coordinate := ![.linear 0 1, .linear 1 2]
  have hc : ∀ i, (co i).xLeft < (co i).xRight := by
    intro i; fin_cases i <;> simp [co, Coordinate.xLeft, Coordinate.xRight]
  choose setup hs using fun i => modal_defined (hc i) (roots 1)
  have hk : ∀ i, (setup i).kind = .modal := fun i => (modal_sane (hc i) (hs i)).2.1
  have hB : ∀ i, Built (co i) (setup i) := fun i => .modal _ (exact 1) (hs i)
  set states : Fin 2 → State 1 ℝ := fun i => setCoeff (setup i) ![3, 0]
  have hv : ∀ i x, (setup i).value (states i) x = 3 := by
    intro i x
    rw [value_eq (hc i) (hB i) (.coeff _ rfl), Fin.sum_univ_two, (modal_sane (hc i) (hs i)).2.2.2.2.2]
    simp [states, setCoeff, Vincent.legendre]
  obtain ⟨states', e, he'⟩ := zxh_grid_reproduces_partial he h0 h1 hc hB (fun i => by rw [hk]; simp)
    (fun i => if i = 0 then [(1, -2), (1, 0)] else [(0, 0), (0, 2)]) (by intro i; fin_cases i <;> simp) [0, 1] states
    (fun i => .coeff _ rfl) (by intro i _ jt _ x; rw [hv, hv])
  exact ⟨setup, states, states', e, fun i x => by rw [he', hv]⟩

end Grids

end MiniCFD.PyLimiter
