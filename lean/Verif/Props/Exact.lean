import Verif.Lemmas.ExactWaves

/-! Properties of the exact Riemann solver: C18, C19, C27, C55, C56. -/

namespace MiniCFD.Exact
open MiniCFD.Euler MiniCFD.Spec.Euler MiniCFD.Spec.Exact

variable {d : Nat}

/-! ### C56: the root finder -/

/-- On every pair of gas states without vacuum the two loops of `FindRoot` end, and the pressure
they return is positive and solves the pressure equation up to the tolerance, from below. -/
theorem findRoot_total {γ : ℝ} (hγ : 1 < γ) {l r : P3} (hl : Good l) (hr : Good r) {eps : ℝ}
    (he : 0 < eps) {x : ℝ} (hx : 0 < x) (h0 : pressureFn γ l r 0 < 0) :
    ∃ n p, (∀ m, n ≤ m →
        findRoot m (pressureFn γ l r) (pressureFnPrime γ l r) x eps = some p) ∧
      0 < p ∧ -eps ≤ pressureFn γ l r p ∧ pressureFn γ l r p ≤ 0 := by
  obtain ⟨n, p, h⟩ := findRoot_done hγ hl hr he hx h0
  exact ⟨n, p, fun m hm => findRoot_more hm h, findRoot_spec hγ hl hr he.le hx h⟩

/-- `f_prime` is the derivative of `f`, and never the zero its assertion rules out. -/
theorem f_prime_is_derivative {γ : ℝ} (hγ : 1 < γ) {l r : P3} (hl : Good l) (hr : Good r) {p : ℝ}
    (hp : 0 < p) :
    HasDerivAt (pressureFn γ l r) (pressureFnPrime γ l r p) p ∧ 0 < pressureFnPrime γ l r p :=
  ⟨pressureFn_deriv hγ hl hr hp, pressureFnPrime_pos hγ hl hr hp⟩

/-- There is only one root. -/
theorem root_unique {γ : ℝ} (hγ : 1 < γ) {l r : P3} (hl : Good l) (hr : Good r) {p q : ℝ}
    (hp : 0 ≤ p) (hq : 0 ≤ q) (h1 : pressureFn γ l r p = 0) (h2 : pressureFn γ l r q = 0) :
    p = q :=
  (pressureFn_strictMono hγ hl hr).injOn hp hq (h1.trans h2.symm)

/-- Whatever happens, every call returns. -/
theorem call_total {γ : ℝ} (hγ : 1 < γ) (starU : ℝ) (l r : Tup d) (hl : AdmissiblePrim l)
    (hr : AdmissiblePrim r) : ∃ n, ∀ m, n ≤ m → ∃ o, call m γ starU l r = some o := by
  have hl' : Good (P3.of l) := hl
  have hr' : Good (P3.of r) := hr
  unfold call axis
  simp only [if_pos (show (P3.of l).rho > 0 from hl'.1), if_pos (show (P3.of r).rho > 0 from hr'.1)]
  by_cases h0 : pressureFn γ (P3.of l) (P3.of r) 0 < 0
  · obtain ⟨n, p, h, -⟩ := findRoot_total hγ hl' hr' (eps := 1 / 100000000) (by norm_num)
      (x := (P3.of l).p) hl'.2 h0
    refine ⟨n, fun m hm => ?_⟩
    simp only [if_pos h0, starPressure, h m hm, Option.map_some]
    exact ⟨_, rfl⟩
  · refine ⟨0, fun m _ => ?_⟩
    simp only [if_neg h0, Option.map_some]
    exact ⟨_, rfl⟩

/-! ### C55: the answer is the exact solution -/

/-- With the exact root the state on the time axis is that of the self-similar entropy solution. -/
theorem ordinary_solves {γ : ℝ} (hγ : 1 < γ) {l r : P3} (hl : Good l) (hr : Good r) {p : ℝ}
    (hp : 0 < p) (h : pressureFn γ l r p = 0) :
    Solves γ l r (ordinary γ l r p).2 p (ordinary γ l r p).1 := by
  obtain ⟨s1, s2⟩ := starSpeed_root h
  obtain ⟨sl, a1, a2, a3, a4⟩ := wave1_code hγ hl hp s1
  obtain ⟨sr, b1, b2, b3, b4⟩ := wave3_code hγ hr hp s2
  refine ⟨sl, sr, a1, b1, a2, b2, a3, b3, ⟨_, a4, fun h' => ?_⟩, ⟨_, b4, fun h' => ?_⟩⟩
  · exact if_pos h'
  · exact if_neg (not_lt.2 h')

/-- A call on two gas states which form no vacuum evaluates the solution at a pressure that
satisfies the pressure equation up to `1e-8`; if it satisfies it exactly, the answer is exact. -/
theorem axis_solves {γ : ℝ} (hγ : 1 < γ) {l r : P3} (hl : Good l) (hr : Good r)
    (h0 : pressureFn γ l r 0 < 0) {fuel : Nat} {v : P3} {s : Option ℝ}
    (e : axis fuel γ l r = some (v, s)) :
    ∃ u p, s = some u ∧ 0 < p ∧ -(1 / 100000000) ≤ pressureFn γ l r p ∧ pressureFn γ l r p ≤ 0 ∧
      (v, u) = ordinary γ l r p ∧ (pressureFn γ l r p = 0 → Solves γ l r u p v) := by
  unfold axis at e
  simp only [if_pos (show l.rho > 0 from hl.1), if_pos (show r.rho > 0 from hr.1), if_pos h0, starPressure] at e
  rcases ef : findRoot fuel (pressureFn γ l r) (pressureFnPrime γ l r) l.p (1 / 100000000) with _ | p
  · rw [ef] at e; cases e
  · rw [ef] at e
    obtain ⟨p1, p2, p3⟩ := findRoot_spec hγ hl hr (by norm_num) hl.2 ef
    simp only [Option.map_some, Option.some.injEq, Prod.mk.injEq] at e
    obtain ⟨rfl, rfl⟩ := e
    exact ⟨_, p, rfl, p1, p2, p3, rfl, fun h => ordinary_solves hγ hl hr p1 h⟩

/-- Two shocks: pressure 4 between equal gases of density 5 and pressure 1 meeting at speed 3/5. -/
example : pressureFn (7 / 5) ⟨5, 3 / 5, 1⟩ ⟨5, -3 / 5, 1⟩ 4 = 0 := by
  have e : ∀ u : ℝ, speedChange (7 / 5) ⟨5, u, 1⟩ 4 = 3 / 5 := by
    intro u
    rw [speedChange_eq ⟨by norm_num, by norm_num⟩, if_pos (by norm_num)]
    unfold phi bigP
    norm_num
    rw [show (25 : ℝ) = 5 * 5 by norm_num, Real.sqrt_mul_self (by norm_num)]
  unfold pressureFn
  rw [e, e]; norm_num

/-- The gas on the left expands into a vacuum given on the right. -/
theorem right_vacuum_solves {γ : ℝ} (hγ : 1 < γ) {l r : P3} (hl : Good l) (hr : r.rho ≤ 0)
    (fuel : Nat) :
    ∃ v, axis fuel γ l r = some (v, none) ∧ IntoVacuum1 γ l v ∧
      (l.u + 2 / (γ - 1) * c γ l ≤ 0 → v = P3.zero) := by
  unfold axis
  simp only [if_pos (show l.rho > 0 from hl.1), if_neg (show ¬ r.rho > 0 by linarith), sound3_eq hl]
  refine ⟨_, rfl, ⟨?_, ?_⟩, ?_⟩
  · intro h
    exact if_pos (by linarith)
  · intro h1 h2
    by_cases h3 : l.u ≥ c γ l
    · rw [if_pos h3]
      exact ⟨hl, ⟨rfl, rfl⟩, by linarith⟩
    · rw [if_neg h3]
      have e : l.u + c γ l * (2 / (γ - 1)) = l.u + 2 / (γ - 1) * c γ l := by ring
      simp only [e]
      rw [if_neg (by linarith)]
      obtain ⟨i0, i1, i2, i3⟩ := insideExpansion_spec hγ
        (div_pos hl.2 (Real.rpow_pos_of_pos hl.1 γ)) h2
      exact ⟨i0, ⟨i1, i3⟩, i2⟩
  · intro h
    have hc := c_pos hγ hl
    have : 0 < 2 / (γ - 1) * c γ l := mul_pos (div_pos two_pos (by linarith)) hc
    rw [if_neg (by linarith), if_pos (by linarith)]

theorem left_vacuum_solves {γ : ℝ} (hγ : 1 < γ) {l r : P3} (hl : l.rho ≤ 0) (hr : Good r)
    (fuel : Nat) :
    ∃ v, axis fuel γ l r = some (v, none) ∧ IntoVacuum3 γ r v ∧
      (0 ≤ r.u - 2 / (γ - 1) * c γ r → v = P3.zero) := by
  unfold axis
  simp only [if_neg (show ¬ l.rho > 0 by linarith), if_pos (show r.rho > 0 from hr.1), sound3_eq hr]
  refine ⟨_, rfl, ⟨?_, ?_⟩, ?_⟩
  · intro h
    exact if_pos (by linarith)
  · intro h1 h2
    by_cases h3 : r.u + c γ r ≤ 0
    · rw [if_pos h3]
      exact ⟨hr, ⟨rfl, rfl⟩, by linarith⟩
    · rw [if_neg h3]
      have e : r.u - c γ r * (2 / (γ - 1)) = -(-r.u + 2 / (γ - 1) * c γ r) := by ring
      simp only [e]
      rw [if_neg (by linarith), insideExpansion_flip]
      obtain ⟨i0, i1, i2, i3⟩ := insideExpansion_spec hγ
        (div_pos hr.2 (Real.rpow_pos_of_pos hr.1 γ)) (show 0 < -r.u + 2 / (γ - 1) * c γ r by linarith)
      refine ⟨i0, ⟨i1, ?_⟩, ?_⟩
      · rw [c_flip]; unfold mir; dsimp only; linarith
      · rw [c_flip]; unfold mir; dsimp only; linarith
  · intro h
    have hc := c_pos hγ hr
    have : 0 < 2 / (γ - 1) * c γ r := mul_pos (div_pos two_pos (by linarith)) hc
    rw [if_neg (by linarith), if_pos (by linarith)]

theorem pressureFn_zero {γ : ℝ} (hγ : 1 < γ) {l r : P3} (hl : Good l) (hr : Good r) :
    pressureFn γ l r 0 =
      (r.u - 2 / (γ - 1) * c γ r) - (l.u + 2 / (γ - 1) * c γ l) := by
  have hx : (γ - 1) / 2 / γ ≠ 0 := by
    have : 0 < (γ - 1) / 2 / γ := by apply div_pos <;> linarith
    exact this.ne'
  unfold pressureFn
  rw [speedChange_eq hl, speedChange_eq hr, if_neg (not_le.2 hl.2), if_neg (not_le.2 hr.2)]
  unfold psi
  rw [zero_div, zero_div, Real.zero_rpow hx]
  ring

/-- The criterion for a vacuum between two receding gases is Toro's. -/
theorem vacuum_criterion {γ : ℝ} (hγ : 1 < γ) {l r : P3} (hl : Good l) (hr : Good r) :
    pressureFn γ l r 0 < 0 ↔ r.u - l.u < 2 / (γ - 1) * (c γ l + c γ r) := by
  rw [pressureFn_zero hγ hl hr]
  constructor <;> intro h <;> linarith

/-- Two gases that recede fast enough to leave a vacuum between them. -/
theorem middle_vacuum_solves {γ : ℝ} (hγ : 1 < γ) {l r : P3} (hl : Good l) (hr : Good r)
    (h : 2 / (γ - 1) * (c γ l + c γ r) ≤ r.u - l.u) (fuel : Nat) :
    ∃ v, axis fuel γ l r = some (v, none) ∧ IntoVacuum1 γ l v ∧ IntoVacuum3 γ r v ∧
      (l.u + 2 / (γ - 1) * c γ l ≤ 0 → 0 ≤ r.u - 2 / (γ - 1) * c γ r → v = P3.zero) := by
  have h0 : ¬ pressureFn γ l r 0 < 0 := by rw [vacuum_criterion hγ hl hr]; linarith
  unfold axis
  simp only [if_pos (show l.rho > 0 from hl.1), if_pos (show r.rho > 0 from hr.1), if_neg h0]
  have hcl := c_pos hγ hl
  have hcr := c_pos hγ hr
  have h2 : 0 < 2 / (γ - 1) := div_pos two_pos (by linarith)
  have hcl2 := mul_pos h2 hcl
  have hcr2 := mul_pos h2 hcr
  rw [mul_add] at h
  have e1 : l.u + c γ l * (2 / (γ - 1)) = l.u + 2 / (γ - 1) * c γ l := by ring
  have e2 : r.u - c γ r * (2 / (γ - 1)) = -(-r.u + 2 / (γ - 1) * c γ r) := by ring
  refine ⟨_, rfl, ⟨?_, ?_⟩, ⟨?_, ?_⟩, ?_⟩
  · intro h'
    unfold nearVacuum
    rw [sound3_eq hl]
    exact if_pos (by linarith)
  · intro h3 h4
    unfold nearVacuum
    simp only [sound3_eq hl, sound3_eq hr, e1]
    rw [if_neg (by linarith), if_neg (by linarith), if_pos h4.le]
    obtain ⟨i0, i1, i2, i3⟩ := insideExpansion_spec hγ
      (div_pos hl.2 (Real.rpow_pos_of_pos hl.1 γ)) h4
    exact ⟨i0, ⟨i1, i3⟩, i2⟩
  · intro h'
    unfold nearVacuum
    simp only [sound3_eq hl, sound3_eq hr]
    rw [if_neg (by linarith), if_pos h']
  · intro h3 h4
    unfold nearVacuum
    simp only [sound3_eq hl, sound3_eq hr, e1, e2]
    rw [if_neg (by linarith), if_neg (by linarith), if_neg (by linarith), if_pos (by linarith),
      insideExpansion_flip]
    obtain ⟨i0, i1, i2, i3⟩ := insideExpansion_spec hγ
      (div_pos hr.2 (Real.rpow_pos_of_pos hr.1 γ)) (show 0 < -r.u + 2 / (γ - 1) * c γ r by linarith)
    refine ⟨i0, ⟨i1, ?_⟩, ?_⟩
    · rw [c_flip]; unfold mir; dsimp only; linarith
    · rw [c_flip]; unfold mir; dsimp only; linarith
  · intro h3 h4
    unfold nearVacuum
    simp only [sound3_eq hl, sound3_eq hr, e1, e2]
    rw [if_neg (by linarith), if_neg (by linarith)]
    by_cases h5 : l.u + 2 / (γ - 1) * c γ l ≥ 0
    · rw [if_pos h5]
      have e : l.u + 2 / (γ - 1) * c γ l = 0 := le_antisymm h3 h5
      rw [e]
      unfold insideExpansion P3.zero
      have hx : 1 / (γ - 1) ≠ 0 := one_div_ne_zero (by linarith)
      simp [Real.zero_rpow (inv_ne_zero (show γ - 1 ≠ 0 by linarith))]
    · rw [if_neg h5, if_neg (by linarith)]

/-! ### C19: consistency -/

theorem axis_same {γ : ℝ} (hγ : 1 < γ) {s : P3} (h : Good s) (fuel : Nat) :
    axis fuel γ s s = some (s, some s.u) := by
  have h0 : pressureFn γ s s 0 < 0 := by
    rw [vacuum_criterion hγ h h, sub_self]
    have := c_pos hγ h
    exact mul_pos (div_pos two_pos (by linarith)) (by linarith)
  have hd : speedChange γ s s.p = 0 := by rw [speedChange_eq h, if_pos le_rfl, phi_at]
  have hf : pressureFn γ s s s.p = 0 := by unfold pressureFn; rw [hd]; ring
  have hr : findRoot fuel (pressureFn γ s s) (pressureFnPrime γ s s) s.p (1 / 100000000) =
      some s.p := by
    unfold findRoot
    have h1 : halve (pressureFn γ s s) fuel s.p = some s.p := by
      cases fuel <;> (unfold halve; rw [if_neg (by rw [hf]; exact lt_irrefl _)])
    rw [h1]
    show newton _ _ _ _ _ = _
    cases fuel <;> (unfold newton; rw [if_neg (by rw [hf]; norm_num)])
  unfold axis
  simp only [if_pos (show s.rho > 0 from h.1), if_pos h0, starPressure, hr, Option.map_some]
  have hu : starSpeed γ s s s.p = s.u := by unfold starSpeed; rw [hd]; ring
  have hss : shockSpeed s ⟨0, s.u, s.p⟩ = s.u + s.u := by unfold shockSpeed; simp
  have ho : (ordinary γ s s s.p).2 = s.u := hu
  have ho1 : (ordinary γ s s s.p).1 = s := by
    rw [ordinary_eq, hu]
    dsimp only
    by_cases h' : 0 < s.u
    · rw [if_pos h']
      unfold code1 nearShock1
      simp only [ge_iff_le, le_refl, if_true]
      rw [if_neg (by rw [hss]; linarith)]
    · rw [if_neg h']
      unfold code3 nearShock3
      simp only [ge_iff_le, le_refl, if_true]
      rw [if_neg (by rw [hss]; linarith)]
  rw [ho, ho1]

/-- Equal states: the flux of that state, in any frame, whatever the solver did before. -/
theorem exact_consistent {γ : ℝ} (hγ : 1 < γ) {F : Frame d} (h : Orthonormal F) (c : Tup d)
    (hc : Admissible γ c) (fuel : Nat) (starU : ℝ) :
    (rotatedCall fuel γ F starU c c).map (·.1) = some (flux γ (F 0) c) := by
  rw [← fluxOfPrim_physical hγ h (physical_of_admissible hc)]
  have hg : Good (P3.of (globalToNormal F (toPrim γ c))) := toPrim_admissible hγ hc
  unfold rotatedCall call
  rw [axis_same hγ hg]
  simp only [Option.map_some, Option.some.injEq]
  unfold fluxOfPrim
  congr 2
  unfold setPassive
  apply Tup.ext
  · rfl
  · funext i
    by_cases hi : i = 0
    · subst hi; rfl
    · simp [hi]
  · rfl

/-! ### C18: reversal -/

/-- A state seen from a face. -/
noncomputable def seen (γ : ℝ) (F : Frame d) (c : Tup d) : P3 :=
  P3.of (globalToNormal F (toPrim γ c))

theorem seen_spec {γ : ℝ} (hγ : 1 < γ) {F : Frame d} {s : Tup d} (h : Admissible γ s) :
    Good (seen γ F s) ∧ (seen γ F s).u = velAlong (F 0) s ∧ c γ (seen γ F s) = sound γ s := by
  refine ⟨toPrim_admissible hγ h, ?_, ?_⟩
  · unfold seen
    rw [toPrim_physical hγ (physical_of_admissible h)]
    rfl
  · unfold seen
    rw [toPrim_physical hγ (physical_of_admissible h)]
    rfl

theorem seen_reversed {γ : ℝ} {F F' : Frame d} (hn : ∀ j, F' 0 j = -F 0 j) (s : Tup d) :
    seen γ F' s = mir (seen γ F s) := by
  unfold seen P3.of globalToNormal mir
  simp only [hn, mul_neg, Finset.sum_neg_distrib]

theorem rotatedCall_ordinary {γ : ℝ} {F : Frame d} {left right : Tup d}
    (hl : Good (seen γ F left)) (hr : Good (seen γ F right))
    (h0 : pressureFn γ (seen γ F left) (seen γ F right) 0 < 0) {n : Nat} {p : ℝ}
    (hp : starPressure n γ (seen γ F left) (seen γ F right) = some p) (s : ℝ) :
    rotatedCall n γ F s left right = some (upwind γ (fluxAt γ p) F left right,
      starSpeed γ (seen γ F left) (seen γ F right) p) := by
  unfold rotatedCall call axis
  change starPressure n γ (P3.of (globalToNormal F (toPrim γ left)))
    (P3.of (globalToNormal F (toPrim γ right))) = some p at hp
  simp only [if_pos (show (P3.of (globalToNormal F (toPrim γ left))).rho > 0 from hl.1),
    if_pos (show (P3.of (globalToNormal F (toPrim γ right))).rho > 0 from hr.1),
    if_pos (show pressureFn γ (P3.of (globalToNormal F (toPrim γ left)))
      (P3.of (globalToNormal F (toPrim γ right))) 0 < 0 from h0), hp, Option.map_some]
  rfl

/-- Both sides of a face, with any frames that share the normal up to sign, any histories and any
numbers of iterations: if the root finder hits the root from both sides, the fluxes cancel. -/
theorem exact_reversal {γ : ℝ} (hγ : 1 < γ) {F F' : Frame d} (h : Orthonormal F)
    (h' : Orthonormal F') (hn : ∀ j, F' 0 j = -F 0 j) (left right : Tup d)
    (hl : Admissible γ left) (hr : Admissible γ right)
    (hv : velAlong (F 0) right - velAlong (F 0) left <
      2 / (γ - 1) * (sound γ left + sound γ right))
    {n n' : Nat} {p p' : ℝ}
    (hp : starPressure n γ (seen γ F left) (seen γ F right) = some p)
    (hp0 : pressureFn γ (seen γ F left) (seen γ F right) p = 0)
    (hp' : starPressure n' γ (seen γ F' right) (seen γ F' left) = some p')
    (hp0' : pressureFn γ (seen γ F' right) (seen γ F' left) p' = 0) (s s' : ℝ) :
    ∃ o o' : Tup d × ℝ, rotatedCall n γ F s left right = some o ∧
      rotatedCall n' γ F' s' right left = some o' ∧
      o'.1 = Tup.scale (-1) o.1 ∧ o'.2 = -o.2 := by
  obtain ⟨gl, ul, al⟩ := seen_spec (F := F) hγ hl
  obtain ⟨gr, ur, ar⟩ := seen_spec (F := F) hγ hr
  obtain ⟨gl', -, -⟩ := seen_spec (F := F') hγ hl
  obtain ⟨gr', -, -⟩ := seen_spec (F := F') hγ hr
  have h0 : pressureFn γ (seen γ F left) (seen γ F right) 0 < 0 := by
    rw [vacuum_criterion hγ gl gr, ul, ur, al, ar]; exact hv
  have hpos := (findRoot_spec hγ gl gr (by norm_num) gl.2 hp).1
  have hpos' := (findRoot_spec hγ gr' gl' (by norm_num) gr'.2 hp').1
  have hfl : pressureFn γ (seen γ F' right) (seen γ F' left) =
      pressureFn γ (seen γ F left) (seen γ F right) := by
    rw [seen_reversed hn, seen_reversed hn]; exact pressureFn_flip _ _ _
  rw [hfl] at hp0'
  have epp : p' = p := root_unique hγ gl gr hpos'.le hpos.le hp0' hp0
  subst epp
  refine ⟨_, _, rotatedCall_ordinary gl gr h0 hp s,
    rotatedCall_ordinary gr' gl' (by rw [hfl]; exact h0) hp' s', ?_, ?_⟩
  · exact reversal_of_coef (fluxAt_assemble γ p') h h' hn left right
      (exactCoef_flip hγ (l := sc (globalToNormal F (toPrim γ left)))
        (r := sc (globalToNormal F (toPrim γ right))) gl gr hpos hp0)
  · dsimp only
    rw [seen_reversed hn, seen_reversed hn]
    exact starSpeed_flip _ _ _ _

/-- A contact discontinuity meets the hypotheses on the root finder. -/
theorem contact_root {γ : ℝ} {l r : P3} (hl : Good l) (hr : Good r) (hu : l.u = r.u)
    (hp : l.p = r.p) (fuel : Nat) :
    starPressure fuel γ l r = some l.p ∧ pressureFn γ l r l.p = 0 := by
  have h1 : speedChange γ l l.p = 0 := by rw [speedChange_eq hl, if_pos le_rfl, phi_at]
  have h2 : speedChange γ r l.p = 0 := by rw [hp, speedChange_eq hr, if_pos le_rfl, phi_at]
  have hf : pressureFn γ l r l.p = 0 := by unfold pressureFn; rw [h1, h2, hu]; ring
  refine ⟨?_, hf⟩
  unfold starPressure findRoot
  have h1 : halve (pressureFn γ l r) fuel l.p = some l.p := by
    cases fuel <;> (unfold halve; rw [if_neg (by rw [hf]; exact lt_irrefl _)])
  rw [h1]
  show newton _ _ _ _ _ = _
  cases fuel <;> (unfold newton; rw [if_neg (by rw [hf]; norm_num)])

example : Good ⟨1, 3, 2⟩ ∧ Good ⟨4, 3, 2⟩ ∧
    starPressure 0 (7 / 5) ⟨1, 3, 2⟩ ⟨4, 3, 2⟩ = some 2 ∧
    pressureFn (7 / 5) ⟨1, 3, 2⟩ ⟨4, 3, 2⟩ 2 = 0 := by
  have h1 : Good ⟨1, 3, 2⟩ := ⟨by norm_num, by norm_num⟩
  have h2 : Good ⟨4, 3, 2⟩ := ⟨by norm_num, by norm_num⟩
  exact ⟨h1, h2, contact_root h1 h2 rfl rfl 0⟩

/-! ### C27: history -/

/-- A call that does not take a vacuum branch does not look at `star_u`. -/
theorem history_free_gas_partial {γ : ℝ} (hγ : 1 < γ) (l r : Tup d) (hl : AdmissiblePrim l)
    (hr : AdmissiblePrim r)
    (hv : r.mom 0 - l.mom 0 < 2 / (γ - 1) * (speedOfSound γ l + speedOfSound γ r))
    (fuel : Nat) (s s' : ℝ) : call fuel γ s l r = call fuel γ s' l r := by
  have hl' : Good (P3.of l) := hl
  have hr' : Good (P3.of r) := hr
  have h0 : pressureFn γ (P3.of l) (P3.of r) 0 < 0 := by
    rw [vacuum_criterion hγ hl' hr', ← sound3_eq hl', ← sound3_eq hr']
    exact hv
  unfold call axis
  simp only [if_pos (show (P3.of l).rho > 0 from hl'.1), if_pos (show (P3.of r).rho > 0 from hr'.1),
    if_pos h0]
  cases starPressure fuel γ (P3.of l) (P3.of r) <;> rfl

/-- When the two sides have the same tangential velocity (in particular in one dimension) the flux
does not depend on the history, vacuum or not. -/
theorem history_free_tangential_partial (γ : ℝ) (l r : Tup d) (h : ∀ i, i ≠ 0 → l.mom i = r.mom i)
    (fuel : Nat) (s s' : ℝ) :
    (call fuel γ s l r).map (·.1) = (call fuel γ s' l r).map (·.1) := by
  have e : ∀ v x, setPassive v x l r = setPassive v 0 l r := by
    intro v x
    unfold setPassive
    congr 1
    funext i
    by_cases hi : i = 0
    · simp [hi]
    · simp [hi, h i hi]
  unfold call
  cases axis fuel γ (P3.of l) (P3.of r) with
  | none => rfl
  | some o =>
    simp only [Option.map_some]
    rw [e, e o.1 (o.2.getD s')]

theorem history_free_1d (γ : ℝ) (l r : Tup 0) (fuel : Nat) (s s' : ℝ) :
    (call fuel γ s l r).map (·.1) = (call fuel γ s' l r).map (·.1) :=
  history_free_tangential_partial γ l r (fun i hi => absurd (Fin.fin_one_eq_zero i) hi) fuel s s'

/-- **Finding.** In two dimensions, gas next to vacuum: a solver that has solved one earlier problem
gives another flux than a new solver. -/
theorem history_matters :
    ∃ (l r a : Tup 1) (s : ℝ), 0 < l.mass ∧ 0 < l.energy ∧ r = Tup.zero ∧ AdmissiblePrim a ∧
      ∀ fuel, history (d := 1) fuel (7 / 5) [] = some 0 ∧ history fuel (7 / 5) [(a, a)] = some s ∧
        ∃ f g : Tup 1, (call fuel (7 / 5) 0 l r).map (·.1) = some f ∧
          (call fuel (7 / 5) s l r).map (·.1) = some g ∧ f ≠ g := by
  refine ⟨⟨1, ![2, 1], 5 / 7⟩, Tup.zero, ⟨1, ![1, 0], 5 / 7⟩, 1, by norm_num, by norm_num, rfl,
    ⟨by norm_num, by norm_num⟩, fun fuel => ⟨rfl, ?_, ?_⟩⟩
  · have hg : Good (P3.of (⟨1, ![1, 0], 5 / 7⟩ : Tup 1)) := ⟨by norm_num [P3.of], by norm_num [P3.of]⟩
    unfold history call
    simp only [history, Option.bind_some]
    rw [axis_same (by norm_num) hg]
    rfl
  · have hs : sound3 (7 / 5) ⟨1, 2, 5 / 7⟩ = 1 := by
      rw [sound3_eq ⟨by norm_num, by norm_num⟩]
      unfold c
      norm_num
    have ha : axis fuel (7 / 5) ⟨1, 2, 5 / 7⟩ ⟨0, 0, 0⟩ = some (⟨1, 2, 5 / 7⟩, none) := by
      unfold axis
      simp only [hs]
      norm_num
    have h1 : P3.of (⟨1, ![2, 1], 5 / 7⟩ : Tup 1) = ⟨1, 2, 5 / 7⟩ := rfl
    have h2 : P3.of (Tup.zero : Tup 1) = ⟨0, 0, 0⟩ := rfl
    unfold call
    rw [h1, h2, ha]
    simp only [Option.map_some, Option.getD_none]
    refine ⟨_, _, rfl, rfl, ?_⟩
    intro h
    have h := congrFun (congrArg Tup.mom h) 1
    simp [primFlux, setPassive, Tup.scale, toCons, Tup.zero] at h

end MiniCFD.Exact
