import Verif.Lemmas.PositiveFace

/-! Gases which recede so fast that a vacuum forms. -/

namespace MiniCFD.Positive

open MiniCFD.Euler MiniCFD.Spec.Euler MiniCFD.Spec.Positive MiniCFD.Exact MiniCFD.Spec.Exact

section

variable {γ : ℝ} (hγ : 1 < γ)
include hγ

theorem leave {s : P3} (hs : Good s) {v K α : ℝ} (hK : 0 ≤ K) (ha : c γ s - s.u ≤ α) :
    0 ≤ α * L γ v K s + Q γ v K s := by
  have := c_pos hγ hs
  exact holder_cone hγ hs hK (by linarith) (fast hγ hs (by linarith))

theorem enter {s : P3} (hs : Good s) {v K α : ℝ} (hK : 0 ≤ K) (ha : c γ s + s.u ≤ α) :
    0 ≤ α * L γ v K s - Q γ v K s := by
  have := c_pos hγ hs
  exact sharer_cone hγ hs hK (by linarith) (fast hγ hs (by linarith))

theorem inside_zero (g1 : ℝ) : insideExpansion γ g1 0 = P3.zero := by
  unfold insideExpansion
  have h1 : (1 : ℝ) / (γ - 1) ≠ 0 := by
    have : 0 < 1 / (γ - 1) := div_pos one_pos (by linarith)
    exact this.ne'
  simp only [mul_zero, zero_div, zero_mul, Real.zero_rpow h1]
  rfl

omit hγ in
theorem Q_zero (v K : ℝ) : Q γ v K P3.zero = 0 := by simp [Q, L, P3.zero]

/-- The sonic state of the left gas. -/
theorem sonic_left {l : P3} (hl : Good l) {v K α : ℝ} (hK : 0 ≤ K) (ha : c γ l - l.u ≤ α) (h1 : l.u ≤ c γ l)
    (h2 : 0 ≤ l.u + 2 / (γ - 1) * c γ l) :
    0 ≤ Q γ v K (insideExpansion γ (l.p / l.rho ^ γ) (l.u + 2 / (γ - 1) * c γ l)) ∧
    Q γ v K (insideExpansion γ (l.p / l.rho ^ γ) (l.u + 2 / (γ - 1) * c γ l)) ≤ α * L γ v K l + Q γ v K l := by
  rcases eq_or_lt_of_le h2 with h | h
  · rw [← h, inside_zero hγ, Q_zero]
    exact ⟨le_rfl, leave hγ hl hK ha⟩
  · obtain ⟨e1, e2⟩ := fan_sonic hγ hl h
    rw [e1]
    have hQ : Q γ v K (fan γ l 0) = pass γ v K l 0 := by rw [pass_Q hγ hl, zero_mul, add_zero]
    constructor
    · have hgood := fan_good hγ hl e2
      have hu' : (fan γ l 0).u = fanA γ l 0 := by simp [fan]
      exact Q_nonneg hγ hgood (v := v) hK (by rw [hu']; exact e2.le) (by
        rw [hu']
        simp only [fan]
        have : γ ≠ 0 := by linarith
        rw [mul_div_cancel₀ _ this])
    · rw [hQ]
      exact (pass_anti hγ hl hK (by linarith) e2).trans (pass_begin hγ hl hK ha)

theorem vacuum_both {l r : P3} (hl : Good l) (hr : Good r) {v K α : ℝ} (hK : 0 ≤ K) (h0 : 0 ≤ α)
    (ha : c γ l - l.u ≤ α) (hb : c γ r + r.u ≤ α) : Both γ α v K K K l r (nearVacuum γ l r) := by
  have hL := mul_nonneg h0 (L_nonneg hγ hl (v := v) hK)
  have hR := mul_nonneg h0 (L_nonneg hγ hr (v := v) hK)
  have hl' := leave hγ hl (v := v) hK ha
  have hr' := enter hγ hr (v := v) hK hb
  have cl := c_pos hγ hl
  have cr := c_pos hγ hr
  have hv : c γ l * (2 / (γ - 1)) = 2 / (γ - 1) * c γ l := mul_comm _ _
  have hv' : c γ r * (2 / (γ - 1)) = 2 / (γ - 1) * c γ r := mul_comm _ _
  unfold nearVacuum
  simp only [sound3_eq hl, sound3_eq hr, hv, hv']
  by_cases h1 : l.u > c γ l
  · rw [if_pos h1]
    have := Q_nonneg hγ hl (v := v) hK (by linarith) (fast hγ hl (by linarith))
    exact ⟨by linarith, by linarith⟩
  rw [if_neg h1]
  push Not at h1
  by_cases h2 : r.u + c γ r < 0
  · rw [if_pos h2]
    have := enter hγ hr (v := v) (α := 0) hK (by linarith)
    exact ⟨by linarith, by linarith⟩
  rw [if_neg h2]
  push Not at h2
  by_cases h3 : l.u + 2 / (γ - 1) * c γ l ≥ 0
  · rw [if_pos h3]
    obtain ⟨k1, k2⟩ := sonic_left hγ hl (v := v) hK ha h1 h3
    exact ⟨k2, by linarith⟩
  rw [if_neg h3]
  by_cases h4 : r.u - 2 / (γ - 1) * c γ r < 0
  · rw [if_pos h4]
    have hc : c γ (mir r) = c γ r := rfl
    have hu : (mir r).u = -r.u := rfl
    have hp : (mir r).p / (mir r).rho ^ γ = r.p / r.rho ^ γ := rfl
    obtain ⟨k1, k2⟩ := sonic_left hγ (good_flip.2 hr) (v := -v) (α := α) hK (by rw [hc, hu]; linarith) (by rw [hc, hu]; linarith)
      (by rw [hc, hu]; linarith)
    rw [hc, hu, hp] at k1 k2
    have e : insideExpansion γ (r.p / r.rho ^ γ) (r.u - 2 / (γ - 1) * c γ r) =
        mir (insideExpansion γ (r.p / r.rho ^ γ) (-r.u + 2 / (γ - 1) * c γ r)) := by
      rw [← insideExpansion_flip]
      congr 1
      ring
    rw [L_mir, Q_mir] at k2
    have e2 := Q_mir γ (-v) K (insideExpansion γ (r.p / r.rho ^ γ) (-r.u + 2 / (γ - 1) * c γ r))
    rw [neg_neg, ← e] at e2
    rw [Both, e2]
    constructor <;> linarith
  · rw [if_neg h4, Both, Q_zero]
    constructor <;> linarith

end

variable {d : Nat}

/-- Receding gases without a difference across. -/
theorem vacuum_keeps {γ : ℝ} (hγ : 1 < γ) {F : Frame d} (h : Orthonormal F) {left right : Tup d} (hl : Admissible γ left)
    (hr : Admissible γ right) (hv : 2 / (γ - 1) * (sound γ left + sound γ right) ≤ velAlong (F 0) right - velAlong (F 0) left)
    (ht : ∀ i, i ≠ 0 → velAlong (F i) left = velAlong (F i) right) {p α : ℝ} (ha : reach γ p (F 0) left ≤ α)
    (hb : reach γ p (F 0) right ≤ α) {fuel : Nat} {s u : ℝ} {f : Tup d} (e : rotatedCall fuel γ F s left right = some (f, u)) :
    Keeps γ α (F 0) left right f := by
  obtain ⟨gl, ul, cl⟩ := seen_spec hγ (F := F) hl
  obtain ⟨gr, ur, cr⟩ := seen_spec hγ (F := F) hr
  have h0 := (reach_nonneg _ _ _ _).trans ha
  have hvac : ¬ pressureFn γ (seen γ F left) (seen γ F right) 0 < 0 := by
    rw [vacuum_criterion hγ gl gr, ul, ur, cl, cr]; linarith
  set l := globalToNormal F (toPrim γ left) with hl_def
  set r := globalToNormal F (toPrim γ right) with hr_def
  have ef : f = normalToGlobal F (primFlux γ (setPassive (nearVacuum γ (P3.of l) (P3.of r)) s l r)) := by
    unfold rotatedCall call axis at e
    rw [← hl_def, ← hr_def] at e
    simp only [if_pos (show (P3.of l).rho > 0 from gl.1), if_pos (show (P3.of r).rho > 0 from gr.1),
      if_neg (show ¬ pressureFn γ (P3.of l) (P3.of r) 0 < 0 from hvac), Option.map_some, Option.getD_none] at e
    exact (congrArg Prod.fst (Option.some.inj e)).symm
  have hmom : ∀ i, i ≠ 0 → l.mom i = r.mom i := by
    intro i hi
    have := ht i hi
    rw [hl_def, hr_def, toPrim_physical hγ (physical_of_admissible hl), toPrim_physical hγ (physical_of_admissible hr)]
    exact this
  have hacr : ∀ v, across v l = across v r := by
    intro v
    unfold across
    congr 1
    exact Finset.sum_congr rfl fun i _ => by rw [hmom _ (Fin.succ_ne_zero i)]
  have key : ∀ v, 0 ≤ ell v (Tup.sub (Tup.add (Tup.scale α (toCons γ l)) (primFlux γ l))
        (primFlux γ (setPassive (nearVacuum γ (P3.of l) (P3.of r)) s l r))) ∧
      0 ≤ ell v (Tup.add (Tup.sub (Tup.scale α (toCons γ r)) (primFlux γ r))
        (primFlux γ (setPassive (nearVacuum γ (P3.of l) (P3.of r)) s l r))) := by
    intro v
    have hK := across_nonneg v r
    simp only [ell_sub, ell_add, ell_scale, ell_cons, ell_flux, of_setPassive]
    have hw : across v (setPassive (nearVacuum γ (P3.of l) (P3.of r)) s l r) = across v r := by
      by_cases hs : 0 < s
      · rw [across_left v _ hs, hacr]
      · rw [across_right v _ hs]
    rw [hw, hacr]
    have a1 := front_ge hγ gl p
    have a2 := front_ge hγ gr p
    have b1 : front γ p (seen γ F left) = acoustic γ p left := front_acoustic hγ hl p
    have b2 : front γ p (seen γ F right) = acoustic γ p right := front_acoustic hγ hr p
    have c1 := neg_abs_le (velAlong (F 0) left)
    have c2 := le_abs_self (velAlong (F 0) right)
    unfold reach at ha hb
    obtain ⟨k1, k2⟩ := vacuum_both hγ gl gr (v := v 0) hK h0 (by linarith) (by linarith)
    exact ⟨sub_nonneg.2 k1, k2⟩
  rw [ef]
  exact ⟨holder_cone_global hγ h hl fun v => (key v).1, sharer_cone_global hγ h hr fun v => (key v).2⟩

/-! ### AUSM -/

theorem ausm_split {γ : ℝ} (hγ : 1 < γ) {s : Tup d} (hs : AdmissiblePrim s) :
    (ausmPositive γ s).mass + (ausmNegative γ s).mass = s.mass * s.mom 0 ∧
    0 ≤ (ausmPositive γ s).mass ∧ (ausmNegative γ s).mass ≤ 0 ∧
    (ausmPositive γ s).mass ≤ s.mass * (|s.mom 0| + c γ (P3.of s)) ∧
    -(s.mass * (|s.mom 0| + c γ (P3.of s))) ≤ (ausmNegative γ s).mass := by
  have hs' : Good (P3.of s) := hs
  have ha := c_pos hγ hs'
  unfold ausmPositive ausmNegative
  simp only [sound_eq3 hs, mul_one]
  set a := c γ (P3.of s) with had
  have hm := hs.1
  have hM : s.mom 0 = a * (s.mom 0 / a) := by field_simp
  have habs : |s.mom 0| = a * |s.mom 0 / a| := by rw [abs_div, abs_of_pos ha]; field_simp
  rw [habs]
  have hM' : s.mass * s.mom 0 = s.mass * a * (s.mom 0 / a) := by rw [mul_assoc, ← hM]
  rw [hM']
  generalize s.mom 0 / a = M
  have hk : 0 < s.mass * a := mul_pos hm ha
  have e3 : s.mass * (a * |M| + a) = s.mass * a * (|M| + 1) := by ring
  rw [e3, ← mul_add, ← mul_neg]
  have g1 := le_abs_self M
  have g2 := neg_abs_le M
  by_cases h : M ≥ -1 ∧ M ≤ 1
  · simp only [if_pos h]
    obtain ⟨h1, h2⟩ := h
    have q1 := mul_self_nonneg (M + 1)
    have q2 := mul_self_nonneg (M - 1)
    have hM1 : |M| ≤ 1 := abs_le.2 ⟨h1, h2⟩
    refine ⟨by ring, mul_nonneg hk.le (by linarith), mul_nonpos_of_nonneg_of_nonpos hk.le (by nlinarith),
      mul_le_mul_of_nonneg_left ?_ hk.le, mul_le_mul_of_nonneg_left ?_ hk.le⟩
    · nlinarith
    · nlinarith
  · simp only [if_neg h]
    by_cases h1 : M < -1
    · have h2 : ¬ M > 1 := by intro; linarith
      simp only [if_pos h1, if_neg h2]
      refine ⟨by ring, by simp, mul_nonpos_of_nonneg_of_nonpos hk.le (by linarith), ?_, ?_⟩
      · exact mul_le_mul_of_nonneg_left (by have := abs_nonneg M; linarith) hk.le
      · exact mul_le_mul_of_nonneg_left (by linarith) hk.le
    · have h2 : M > 1 := by
        by_contra h2
        push Not at h1 h2
        exact h ⟨h1, h2⟩
      simp only [if_neg h1, if_pos h2]
      refine ⟨by ring, mul_nonneg hk.le (by linarith), by simp, ?_, ?_⟩
      · exact mul_le_mul_of_nonneg_left (by linarith) hk.le
      · exact mul_le_mul_of_nonneg_left (by have := abs_nonneg M; linarith) hk.le

end MiniCFD.Positive
