import Verif.Lemmas.PyFirst
import Verif.Lemmas.PyFRDG
import Verif.Props.PyEnergy
import Verif.Props.PyRK

/-! # C127: the schemes of degree zero for linear advection and the equation of Burgers -/

namespace MiniCFD.PyFirst
open MiniCFD.PyQuad MiniCFD.PyExpansion MiniCFD.PyDG MiniCFD.PyEnergy Polynomial
open MiniCFD.PyScalar (Solver linearSolver burgersSolver)
open MiniCFD.RK (Sys)
open MiniCFD.Spec.PyFirst

variable {n : ℕ} {c : Coordinate}

/-- The scalar equations without diffusion. -/
def Inviscid (s : Solver) : Prop := (∃ a, s = linearSolver a 0) ∨ ∃ k, 0 < k ∧ s = burgersSolver k

/-! ### The fluxes -/

/-- The upwind flux of the equation of Burgers. -/
theorem burgers_upwind {k : ℝ} (hk : 0 < k) (l r : ℝ) :
    (burgersSolver k).upwindFlux l r = max (k * max l 0 ^ 2 / 2) (k * min r 0 ^ 2 / 2) := by
  have hv : (burgersSolver k).upwindFlux l r = k * PyScalar.burgersValue k l r 0 ^ 2 / 2 := by
    simp [Solver.upwindFlux, Solver.getValue, burgersSolver, PyScalar.burgers]
  rw [hv]
  have hle : ∀ x y : ℝ, x ^ 2 ≤ y ^ 2 → k * x ^ 2 / 2 ≤ k * y ^ 2 / 2 := fun x y h => by
    have := mul_le_mul_of_nonneg_left h hk.le; linarith
  rcases le_or_gt l r with h | h
  · rw [PyScalar.burgersValue_fan hk h]
    have hz : PyScalar.fan k l r 0 = max l (min r 0) := by simp [PyScalar.fan]
    rw [hz]
    rcases le_total 0 l with h0 | h0
    · rw [min_eq_right (h0.trans h), max_eq_left h0]
      rw [max_eq_left (hle _ _ (by simpa using sq_nonneg _))]
    · rcases le_total r 0 with h1 | h1
      · rw [min_eq_left h1, max_eq_right h, max_eq_right h0, max_eq_right (hle _ _ (by simpa using sq_nonneg _))]
      · rw [min_eq_right h1, max_eq_right h0]
        simp
  · rw [PyScalar.burgersValue_jump h]
    by_cases hs : 0 ≤ k * ((l + r) / 2)
    · rw [PyScalar.jump_le hs]
      have hlr : 0 ≤ l + r := by
        have := (mul_nonneg_iff_of_pos_left hk).1 hs; linarith
      have hl : 0 ≤ l := by linarith
      rw [max_eq_left hl, max_eq_left (hle _ _ ?_)]
      rcases le_total r 0 with h1 | h1
      · rw [min_eq_left h1]; nlinarith
      · rw [min_eq_right h1]; simpa using sq_nonneg l
    · rw [PyScalar.jump_gt (not_le.1 hs)]
      have hlr : l + r < 0 := by
        by_contra hcon
        exact hs (mul_nonneg hk.le (by linarith))
      have hr : r ≤ 0 := by linarith
      rw [min_eq_left hr, max_eq_right (hle _ _ ?_)]
      rcases le_total l 0 with h1 | h1
      · rw [max_eq_right h1]; simpa using sq_nonneg r
      · rw [max_eq_left h1]; nlinarith

/-- The upwind fluxes are monotone, and the speed bounds their change. -/
theorem upwind_monotone {s : Solver} (hs : Inviscid s) {L m M : ℝ} (hL : ∀ v, m ≤ v → v ≤ M → s.eq.radius v ≤ L) :
    Monotone s.upwindFlux L m M := by
  rcases hs with ⟨a, rfl⟩ | ⟨k, hk, rfl⟩
  · obtain ⟨-, h2, h3⟩ := PyScalar.godunov_monotone fun l r => PyScalar.linear_godunov a 0 l r
    refine ⟨h2, h3, fun l r u u' hm hu hM => ?_⟩
    have hv : ∀ l r, (linearSolver a 0).upwindFlux l r = a * (if 0 ≤ a then l else r) := by
      intro l r
      by_cases h : 0 ≤ a <;> simp [Solver.upwindFlux, Solver.getValue, linearSolver, PyScalar.linear, h]
    have ha : |a| ≤ L := hL u hm (hu.trans hM)
    have h0 : 0 ≤ u' - u := sub_nonneg.2 hu
    have := mul_le_mul_of_nonneg_right ha h0
    simp only [hv]
    by_cases h : 0 ≤ a
    · rw [abs_of_nonneg h] at this
      simp only [if_pos h]
      linarith
    · rw [abs_of_neg (not_le.1 h)] at this
      simp only [if_neg h]
      linarith
  · obtain ⟨-, h2, h3⟩ := PyScalar.godunov_monotone fun l r => PyScalar.burgers_godunov hk l r
    refine ⟨h2, h3, fun l r u u' hm hu hM => ?_⟩
    have r1 : k * |u| ≤ L := by
      have := hL u hm (hu.trans hM)
      rwa [PyScalar.Equation.radius, show (burgersSolver k).eq.speed u = k * u from rfl, abs_mul, abs_of_pos hk] at this
    have r2 : k * |u'| ≤ L := by
      have := hL u' (hm.trans hu) hM
      rwa [PyScalar.Equation.radius, show (burgersSolver k).eq.speed u' = k * u' from rfl, abs_mul, abs_of_pos hk] at this
    simp only [burgers_upwind hk]
    have hmax : ∀ x y z : ℝ, x ≤ y → max y z - max x z ≤ y - x := by
      intro x y z h
      rcases le_total x z with h1 | h1
      · rw [max_eq_right h1]
        rcases le_total y z with h2 | h2
        · rw [max_eq_right h2]; linarith
        · rw [max_eq_left h2]; linarith
      · rw [max_eq_left h1, max_eq_left (h1.trans h)]
    have hA : k * max u 0 ^ 2 / 2 ≤ k * max u' 0 ^ 2 / 2 := by
      have : max u 0 ^ 2 ≤ max u' 0 ^ 2 := pow_le_pow_left₀ (le_max_right _ _) (max_le_max hu le_rfl) 2
      have := mul_le_mul_of_nonneg_left this hk.le
      linarith
    have hB : k * min u' 0 ^ 2 / 2 ≤ k * min u 0 ^ 2 / 2 := by
      have h1 : min u 0 ≤ min u' 0 := min_le_min hu le_rfl
      have h2 : min u' 0 ≤ 0 := min_le_right _ _
      have : min u' 0 ^ 2 ≤ min u 0 ^ 2 := by nlinarith
      have := mul_le_mul_of_nonneg_left this hk.le
      linarith
    have e1 := hmax _ _ (k * min r 0 ^ 2 / 2) hA
    have e2 := hmax _ _ (k * max l 0 ^ 2 / 2) hB
    rw [max_comm (k * max l 0 ^ 2 / 2), max_comm (k * max l 0 ^ 2 / 2)]
    refine (add_le_add e1 e2).trans ?_
    rcases le_total 0 u with h0 | h0
    · have h0' := h0.trans hu
      rw [max_eq_left h0, max_eq_left h0', min_eq_right h0, min_eq_right h0']
      rw [abs_of_nonneg h0] at r1
      rw [abs_of_nonneg h0'] at r2
      have := mul_le_mul_of_nonneg_right (add_le_add r1 r2) (sub_nonneg.2 hu)
      nlinarith
    · rcases le_total 0 u' with h1 | h1
      · rw [max_eq_right h0, max_eq_left h1, min_eq_left h0, min_eq_right h1]
        rw [abs_of_nonpos h0] at r1
        rw [abs_of_nonneg h1] at r2
        have a1 := mul_le_mul_of_nonneg_right r2 h1
        have a2 := mul_le_mul_of_nonneg_right r1 (neg_nonneg.2 h0)
        have b1 : 0 ≤ L * u' := (mul_nonneg (mul_nonneg hk.le h1) h1).trans a1
        have b2 : 0 ≤ L * -u := (mul_nonneg (mul_nonneg hk.le (neg_nonneg.2 h0)) (neg_nonneg.2 h0)).trans a2
        nlinarith
      · rw [max_eq_right h0, max_eq_right h1, min_eq_left h0, min_eq_left h1]
        rw [abs_of_nonpos h0] at r1
        rw [abs_of_nonpos h1] at r2
        have := mul_le_mul_of_nonneg_right (add_le_add r1 r2) (sub_nonneg.2 hu)
        nlinarith

/-! ### The residual -/

/-- An element of degree zero holds one number, which is the value everywhere. -/
theorem value_const (hc : c.xLeft < c.xRight) {s : Setup 0} (hb : Built c s) (v : Fin 1 → ℝ) (x : ℝ) :
    s.value (setCoeff s v) x = v 0 := by
  have sumR : ∀ f : Fin (0 + 1) → ℝ, ∑ j, f j = f 0 := fun f => Fin.sum_univ_one f
  have h1 : s.basisValues x 0 = 1 := by
    obtain ⟨⟨q, hq, e⟩, hn, hm⟩ := basis_values hc hb 0
    by_cases hk : s.kind = .modal
    · rw [hm hk]; simp [Vincent.legendre]
    · have := hn hk 0
      rw [e, eq_C_of_natDegree_le_zero hq, eval_C, if_pos rfl] at this
      rw [e, eq_C_of_natDegree_le_zero hq, eval_C, this]
  have := value_eq hc hb (Reached.coeff (st := setCoeff s v) v rfl) x
  rw [this, sumR, h1, one_smul]
  rfl

/-- The residual of degree zero is the difference of the fluxes at the two faces over the length. -/
theorem residual_first {s : Solver} (hs : Inviscid s) {co : Fin (n + 2) → Coordinate} (hc : ∀ i, (co i).xLeft < (co i).xRight)
    {setup : Fin (n + 2) → Setup 0} (hb : ∀ i, Built (co i) (setup i)) (u : Fin (n + 2) → Fin 1 → ℝ) (i : Fin (n + 2)) :
    PyDG.residual (physics s) (grid setup u) i =
      some fun _ => rate s.upwindFlux (fun i => (co i).xRight - (co i).xLeft) (fun i => u i 0) i := by
  have sumR : ∀ f : Fin (0 + 1) → ℝ, ∑ j, f j = f 0 := fun f => Fin.sum_univ_one f
  have hnl : (setup i).kind ≠ .lobatto := fun hk => by
    have := PyFR.lobatto_pos (hc i) (hb i) hk
    omega
  obtain ⟨r, hr, hw⟩ := PyDG.weak_form (hc i) (physics s) ((grid setup u).cells i) (hb i) (.coeff (u i) rfl)
    (faceData (physics s) (grid setup u) i)
  have hface : ∀ i, (leftFace (physics s) (grid setup u) i).1 = s.upwindFlux (u (i - 1) 0) (u i 0) := by
    intro i
    rw [periodic_left _ _ rfl]
    have d0 := ((value_derivatives (hc (i - 1)) (hb (i - 1)) (.coeff (u (i - 1)) rfl) 0).2 0).2.2.2.1
    have d1 := ((value_derivatives (hc i) (hb i) (.coeff (u i) rfl) 0).2 0).2.2.1
    rw [iteratedDeriv_zero, value_const (hc _) (hb _)] at d0 d1
    have hcoef : ∀ v, (physics s).coefficient v = 0 := by
      intro v
      rcases hs with ⟨a, rfl⟩ | ⟨k, hk, rfl⟩ <;> rfl
    unfold interface
    simp only [grid, d0, d1, Cell.extra, hcoef, min_self, add_zero, if_true]
    rfl
  have hw1 := hw 1 (by simp)
  have hf : ∀ x, field ((grid setup u).cells i).setup r x = r 0 := fun x => value_const (hc i) (hb i) r x
  have hsum := integrate_derivative (hc i) (hb i) (fun hk => absurd hk hnl) X (.inr ⟨by simp, hnl⟩)
  simp only [derivative_X, eval_one, eval_X] at hsum
  have hint : ((grid setup u).cells i).setup.integrator.integrate (fun _ => r 0) =
      ((co i).xRight - (co i).xLeft) * r 0 := by
    rw [← hsum]
    change (setup i).integrator.integrate _ = _
    rw [Integrator.integrate_eq, Integrator.integrate_eq, Finset.sum_mul]
    simp
  simp only [hf, eval_one, one_smul, derivative_one, eval_zero, zero_smul, add_zero, sub_zero, hint] at hw1
  have hz : ((grid setup u).cells i).setup.integrator.integrate (fun _ => (0 : ℝ)) = 0 := by
    simp [Integrator.integrate_eq]
  rw [hz] at hw1
  simp only [faceData, periodic_right _ _ (show (grid setup u).boundary = none from rfl), hface, add_sub_cancel_right] at hw1
  rw [PyDG.residual, hr]
  congr 1
  funext k
  rw [Fin.fin_one_eq_zero k, rate, eq_div_iff (sub_pos.2 (hc i)).ne', mul_comm]
  linarith

/-! ### One step -/

/-- The lengths of the elements. -/
def lengths (co : Fin (n + 2) → Coordinate) (i : Fin (n + 2)) : ℝ := (co i).xRight - (co i).xLeft

/-- The value held by each element, here at its centre. -/
noncomputable def held (co : Fin (n + 2) → Coordinate) (setup : Fin (n + 2) → Setup 0) (u : Fin (n + 2) → Fin 1 → ℝ)
    (i : Fin (n + 2)) : ℝ := (setup i).value (setCoeff (setup i) (u i)) (((co i).xLeft + (co i).xRight) / 2)

section
variable {s : Solver} (hs : Inviscid s) {co : Fin (n + 2) → Coordinate} (hc : ∀ i, (co i).xLeft < (co i).xRight)
  {setup : Fin (n + 2) → Setup 0} (hb : ∀ i, Built (co i) (setup i)) {R : ℝ → (Fin (n + 2) → Fin 1 → ℝ) → Fin (n + 2) → Fin 1 → ℝ}
  (hR : ∀ t u i, PyDG.residual (physics s) (grid setup u) i = some (R t u i)) {L m M : ℝ}
  (hL : ∀ v, m ≤ v → v ≤ M → s.eq.radius v ≤ L)

include hc hb

theorem held_eq (u : Fin (n + 2) → Fin 1 → ℝ) : held co setup u = fun i => u i 0 := by
  funext i
  exact value_const (hc i) (hb i) _ _

include hs hR

theorem euler_eq (dt t : ℝ) (u : Fin (n + 2) → Fin 1 → ℝ) :
    held co setup (u + dt • R t u) = advance s.upwindFlux (lengths co) dt (held co setup u) := by
  rw [held_eq hc hb, held_eq hc hb]
  funext i
  have : R t u i = fun _ => rate s.upwindFlux (lengths co) (fun i => u i 0) i :=
    Option.some.inj ((hR t u i).symm.trans (residual_first hs hc hb u i))
  simp only [Pi.add_apply, Pi.smul_apply, smul_eq_mul, this]
  rfl

include hL

/-- One step of Euler's method no longer than the time in which a wave crosses an element: no new extremum
appears among an element and its two neighbours, and the inequality of Kruzhkov holds for the entropies `|u - k|`. -/
theorem local_bounds {dt : ℝ} (hdt : 0 ≤ dt) (hcfl : ∀ i, dt * L ≤ (co i).xRight - (co i).xLeft) (t : ℝ)
    {u : Fin (n + 2) → Fin 1 → ℝ} (hu : Within m M (held co setup u)) (i : Fin (n + 2)) :
    let v := held co setup u
    let v' := held co setup (u + dt • R t u)
    (min (v (i - 1)) (min (v i) (v (i + 1))) ≤ v' i ∧ v' i ≤ max (v (i - 1)) (max (v i) (v (i + 1)))) ∧
      ∀ k, m ≤ k → k ≤ M → |v' i - k| ≤ |v i - k| - dt / ((co i).xRight - (co i).xLeft) *
        ((s.upwindFlux (max (v i) k) (max (v (i + 1)) k) - s.upwindFlux (min (v i) k) (min (v (i + 1)) k)) -
          (s.upwindFlux (max (v (i - 1)) k) (max (v i) k) - s.upwindFlux (min (v (i - 1)) k) (min (v i) k))) := by
  have hF := upwind_monotone hs hL
  have hh : ∀ i, 0 < lengths co i := fun i => sub_pos.2 (hc i)
  dsimp only
  rw [euler_eq hs hc hb hR]
  exact ⟨advance_between hF hh hdt hcfl hu i, fun k h1 h2 => advance_entropy hF hh hdt hcfl hu ⟨h1, h2⟩ i⟩

/-! ### Runs -/

omit hs hc hb hR hL in
theorem convex_of {V : Type*} [AddCommGroup V] [Module ℝ V] {S : V → Prop}
    (h : ∀ u w (a b : ℝ), 0 ≤ a → 0 ≤ b → a + b = 1 → S u → S w → S (a • u + b • w)) : Spec.RK.ConvexSet S :=
  fun u v hu hv w h0 h1 => h u v w (1 - w) h0 (sub_nonneg.2 h1) (by ring) hu hv

omit hs hc hb hR hL in
theorem variation_convex (v w : Fin (n + 2) → ℝ) {a b : ℝ} (ha : 0 ≤ a) (hb : 0 ≤ b) :
    variation (fun i => a * v i + b * w i) ≤ a * variation v + b * variation w := by
  unfold variation
  rw [Finset.mul_sum, Finset.mul_sum, ← Finset.sum_add_distrib]
  refine Finset.sum_le_sum fun i _ => ?_
  have : a * v (i + 1) + b * w (i + 1) - (a * v i + b * w i) = a * (v (i + 1) - v i) + b * (w (i + 1) - w i) := by ring
  rw [this]
  refine (abs_add_le _ _).trans (le_of_eq ?_)
  rw [abs_mul, abs_mul, abs_of_nonneg ha, abs_of_nonneg hb]

/-- Whatever the number of steps, by the methods of the first three orders: the values stay within the bounds of the
first ones, and the total variation does not grow. -/
theorem bounds {order : ℕ} (ho : order ≤ 3) {dts : List ℝ} (hdt : ∀ dt ∈ dts, 0 ≤ dt)
    (hcfl : ∀ dt ∈ dts, ∀ i, dt * L ≤ (co i).xRight - (co i).xLeft) {t : ℝ} {sys sys' : Sys ℝ (Fin (n + 2) → Fin 1 → ℝ)}
    (hu : Within m M (held co setup sys.sol)) (h : PyRK.march order id R dts t sys = some sys') :
    (∀ i x, m ≤ (setup i).value (setCoeff (setup i) (sys'.sol i)) x ∧
      (setup i).value (setCoeff (setup i) (sys'.sol i)) x ≤ M) ∧
    variation (held co setup sys'.sol) ≤ variation (held co setup sys.sol) := by
  have hF := upwind_monotone hs hL
  have hh : ∀ i, 0 < lengths co i := fun i => sub_pos.2 (hc i)
  have key := PyRK.strong_stability ho (limit := id) (R := R)
    (fun u => Within m M (held co setup u) ∧ variation (held co setup u) ≤ variation (held co setup sys.sol))
    (convex_of fun u w a b ha hb' hab hu hw => by
      have e : held co setup (a • u + b • w) = fun i => a * held co setup u i + b * held co setup w i := by
        simp only [held_eq hc hb]
        funext i
        simp
      rw [e]
      refine ⟨fun i => ⟨?_, ?_⟩, ?_⟩
      · have h1 := mul_le_mul_of_nonneg_left (hu.1 i).1 ha
        have h2 := mul_le_mul_of_nonneg_left (hw.1 i).1 hb'
        calc m = a * m + b * m := by rw [← add_mul, hab, one_mul]
          _ ≤ _ := add_le_add h1 h2
      · have h1 := mul_le_mul_of_nonneg_left (hu.1 i).2 ha
        have h2 := mul_le_mul_of_nonneg_left (hw.1 i).2 hb'
        calc _ ≤ a * M + b * M := add_le_add h1 h2
          _ = M := by rw [← add_mul, hab, one_mul]
      · refine (variation_convex _ _ ha hb').trans ?_
        have h1 := mul_le_mul_of_nonneg_left hu.2 ha
        have h2 := mul_le_mul_of_nonneg_left hw.2 hb'
        refine (add_le_add h1 h2).trans (le_of_eq ?_)
        rw [← add_mul, hab, one_mul])
    (fun u hu => hu) dts
    (fun dt hmem t u hu => by
      rw [euler_eq hs hc hb hR]
      exact ⟨advance_within hF hh (hdt dt hmem) (hcfl dt hmem) hu.1,
        (advance_variation hF hh (hdt dt hmem) (hcfl dt hmem) hu.1).trans hu.2⟩)
    t sys sys' ⟨hu, le_rfl⟩ h
  refine ⟨fun i x => ?_, key.2⟩
  have := key.1 i
  rw [held_eq hc hb] at this
  rwa [value_const (hc i) (hb i)]

omit hs hc hb hR hL in
/-- Two runs side by side are one run of the pair. -/
theorem march_pair {V : Type*} [AddCommGroup V] [Module ℝ V] {order : ℕ} {R : ℝ → V → V} (dts : List ℝ) :
    ∀ (t : ℝ) (s w s' w' : Sys ℝ V) (q : Sys ℝ (V × V)), q.sol = (s.sol, w.sol) →
      PyRK.march order id R dts t s = some s' → PyRK.march order id R dts t w = some w' →
      ∃ q', PyRK.march order id (fun t p => (R t p.1, R t p.2)) dts t q = some q' ∧ q'.sol = (s'.sol, w'.sol) := by
  induction dts with
  | nil =>
    intro t s w s' w' q hq h1 h2
    cases h1; cases h2
    exact ⟨q, rfl, hq⟩
  | cons dt dts ih =>
    intro t s w s' w' q hq h1 h2
    rw [PyRK.march] at h1 h2 ⊢
    obtain ⟨s1, e1, h1⟩ := Option.bind_eq_some_iff.1 h1
    obtain ⟨w1, e2, h2⟩ := Option.bind_eq_some_iff.1 h2
    obtain ⟨o1, o4⟩ := PyRK.update_some e1
    obtain ⟨q1, e3⟩ := PyRK.update_defined o1 o4 id (fun t (p : V × V) => (R t p.1, R t p.2)) dt t q
    have hsol : q1.sol = (s1.sol, w1.sol) := by
      rw [PyRK.update_sol e1, PyRK.update_sol e2, PyRK.update_sol e3, hq]
      obtain rfl | rfl | rfl | rfl : order = 1 ∨ order = 2 ∨ order = 3 ∨ order = 4 := by omega
      all_goals rfl
    obtain ⟨q', h3, h4⟩ := ih (t + dt) s1 w1 s' w' q1 hsol h1 h2
    exact ⟨q', by rw [e3]; exact h3, h4⟩

/-- Two runs with the same steps do not move apart: the integral of their distance does not grow. And where one
starts above the other it stays above. -/
theorem two_runs {order : ℕ} (ho : order ≤ 3) {dts : List ℝ} (hdt : ∀ dt ∈ dts, 0 ≤ dt)
    (hcfl : ∀ dt ∈ dts, ∀ i, dt * L ≤ (co i).xRight - (co i).xLeft) {t : ℝ}
    {sys sys' other other' : Sys ℝ (Fin (n + 2) → Fin 1 → ℝ)}
    (hu : Within m M (held co setup sys.sol)) (hw : Within m M (held co setup other.sol))
    (h : PyRK.march order id R dts t sys = some sys') (h' : PyRK.march order id R dts t other = some other') :
    distance (fun i => (co i).xRight - (co i).xLeft) (held co setup sys'.sol) (held co setup other'.sol) ≤
      distance (fun i => (co i).xRight - (co i).xLeft) (held co setup sys.sol) (held co setup other.sol) ∧
    ((∀ i, held co setup sys.sol i ≤ held co setup other.sol i) →
      ∀ i, held co setup sys'.sol i ≤ held co setup other'.sol i) := by
  have hF := upwind_monotone hs hL
  have hh : ∀ i, 0 < lengths co i := fun i => sub_pos.2 (hc i)
  obtain ⟨q, hqs⟩ : ∃ q : Sys ℝ ((Fin (n + 2) → Fin 1 → ℝ) × (Fin (n + 2) → Fin 1 → ℝ)), q.sol = (sys.sol, other.sol) :=
    ⟨⟨t, (sys.sol, other.sol), []⟩, rfl⟩
  obtain ⟨q', hq, hsol⟩ := march_pair dts t sys other sys' other' q hqs h h'
  have lin : ∀ (u w : Fin (n + 2) → Fin 1 → ℝ) (a b : ℝ), held co setup (a • u + b • w) =
      fun i => a * held co setup u i + b * held co setup w i := by
    intro u w a b
    simp only [held_eq hc hb]
    funext i
    simp
  have inside : ∀ (u w : Fin (n + 2) → ℝ) (a b : ℝ), 0 ≤ a → 0 ≤ b → a + b = 1 → Within m M u → Within m M w →
      Within m M fun i => a * u i + b * w i := by
    intro u w a b ha hb' hab hu hw i
    constructor
    · calc m = a * m + b * m := by rw [← add_mul, hab, one_mul]
        _ ≤ _ := add_le_add (mul_le_mul_of_nonneg_left (hu i).1 ha) (mul_le_mul_of_nonneg_left (hw i).1 hb')
    · calc _ ≤ a * M + b * M := add_le_add (mul_le_mul_of_nonneg_left (hu i).2 ha) (mul_le_mul_of_nonneg_left (hw i).2 hb')
        _ = M := by rw [← add_mul, hab, one_mul]
  constructor
  · have key := PyRK.strong_stability ho (limit := id) (R := fun t p => (R t p.1, R t p.2))
      (fun p => (Within m M (held co setup p.1) ∧ Within m M (held co setup p.2)) ∧
        distance (lengths co) (held co setup p.1) (held co setup p.2) ≤
          distance (lengths co) (held co setup sys.sol) (held co setup other.sol))
      (convex_of fun p r a b ha hb' hab hp hr => by
        simp only [Prod.fst_add, Prod.snd_add, Prod.smul_fst, Prod.smul_snd, lin]
        refine ⟨⟨inside _ _ _ _ ha hb' hab hp.1.1 hr.1.1, inside _ _ _ _ ha hb' hab hp.1.2 hr.1.2⟩, ?_⟩
        have h1 := mul_le_mul_of_nonneg_left hp.2 ha
        have h2 := mul_le_mul_of_nonneg_left hr.2 hb'
        have h3 := add_le_add h1 h2
        rw [← add_mul, hab, one_mul] at h3
        refine le_trans ?_ h3
        unfold distance
        rw [Finset.mul_sum, Finset.mul_sum, ← Finset.sum_add_distrib]
        refine Finset.sum_le_sum fun i _ => ?_
        have e : a * held co setup p.1 i + b * held co setup r.1 i - (a * held co setup p.2 i + b * held co setup r.2 i) =
          a * (held co setup p.1 i - held co setup p.2 i) + b * (held co setup r.1 i - held co setup r.2 i) := by ring
        rw [e]
        have e2 := abs_add_le (a * (held co setup p.1 i - held co setup p.2 i)) (b * (held co setup r.1 i - held co setup r.2 i))
        rw [abs_mul, abs_mul, abs_of_nonneg ha, abs_of_nonneg hb'] at e2
        have := mul_le_mul_of_nonneg_left e2 (hh i).le
        linarith)
      (fun u hu => hu) dts
      (fun dt hmem t p hp => by
        simp only [Prod.fst_add, Prod.snd_add, Prod.smul_fst, Prod.smul_snd, euler_eq hs hc hb hR]
        exact ⟨⟨advance_within hF hh (hdt dt hmem) (hcfl dt hmem) hp.1.1,
          advance_within hF hh (hdt dt hmem) (hcfl dt hmem) hp.1.2⟩,
          (advance_distance hF hh (hdt dt hmem) (hcfl dt hmem) hp.1.1 hp.1.2).trans hp.2⟩)
      t q q' (by rw [hqs]; exact ⟨⟨hu, hw⟩, le_rfl⟩) hq
    rw [hsol] at key
    exact key.2
  · intro hle
    have key := PyRK.strong_stability ho (limit := id) (R := fun t p => (R t p.1, R t p.2))
      (fun p => (Within m M (held co setup p.1) ∧ Within m M (held co setup p.2)) ∧
        ∀ i, held co setup p.1 i ≤ held co setup p.2 i)
      (convex_of fun p r a b ha hb' hab hp hr => by
        simp only [Prod.fst_add, Prod.snd_add, Prod.smul_fst, Prod.smul_snd, lin]
        exact ⟨⟨inside _ _ _ _ ha hb' hab hp.1.1 hr.1.1, inside _ _ _ _ ha hb' hab hp.1.2 hr.1.2⟩, fun i =>
          add_le_add (mul_le_mul_of_nonneg_left (hp.2 i) ha) (mul_le_mul_of_nonneg_left (hr.2 i) hb')⟩)
      (fun u hu => hu) dts
      (fun dt hmem t p hp => by
        simp only [Prod.fst_add, Prod.snd_add, Prod.smul_fst, Prod.smul_snd, euler_eq hs hc hb hR]
        exact ⟨⟨advance_within hF hh (hdt dt hmem) (hcfl dt hmem) hp.1.1,
          advance_within hF hh (hdt dt hmem) (hcfl dt hmem) hp.1.2⟩,
          advance_mono hF hh (hdt dt hmem) (hcfl dt hmem) hp.1.1 hp.1.2 hp.2⟩)
      t q q' (by rw [hqs]; exact ⟨⟨hu, hw⟩, hle⟩) hq
    rw [hsol] at key
    exact key.2

end

end MiniCFD.PyFirst
