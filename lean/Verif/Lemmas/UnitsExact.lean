import Verif.Lemmas.UnitsFlux
import Verif.Lemmas.Exact

/-! The exact solver in other units. -/

namespace MiniCFD.Units

open MiniCFD.Spec.Units MiniCFD.Euler MiniCFD.Spec.Euler MiniCFD.Exact MiniCFD.Spec.Exact

variable (k : Units)

/-- The unit of pressure. -/
noncomputable def press : ℝ := k.density * k.velocity ^ 2

/-- Density, normal velocity and pressure in new units. -/
noncomputable def conv (s : P3) : P3 := ⟨k.density * s.rho, k.velocity * s.u, press k * s.p⟩

theorem pp : 0 < press k := press_pos k

theorem conv_good {s : P3} (h : Good s) : Good (conv k s) := ⟨mul_pos k.density_pos h.1, mul_pos (pp k) h.2⟩

theorem conv_zero : conv k P3.zero = P3.zero := by simp [conv, P3.zero]

theorem sound3_conv (γ : ℝ) (s : P3) : sound3 γ (conv k s) = k.velocity * sound3 γ s := by
  unfold sound3 conv press
  simp only [nonpos_mass, nonpos_energy, sound_ratio]
  split_ifs
  · rw [mul_zero]
  · rfl

theorem bigP_conv (γ : ℝ) (b : P3) (p : ℝ) : bigP γ (conv k b) (press k * p) = press k * bigP γ b p := by
  unfold bigP conv
  ring

theorem root_conv (γ : ℝ) (b : P3) (p : ℝ) :
    Real.sqrt ((conv k b).rho * bigP γ (conv k b) (press k * p)) =
      k.density * k.velocity * Real.sqrt (b.rho * bigP γ b p) := by
  rw [bigP_conv]
  have e : (conv k b).rho * (press k * bigP γ b p) = (k.density * k.velocity) ^ 2 * (b.rho * bigP γ b p) := by
    unfold conv press
    ring
  have h : 0 ≤ k.density * k.velocity := (mul_pos k.density_pos k.velocity_pos).le
  rw [e, Real.sqrt_mul (sq_nonneg _), Real.sqrt_sq h]

theorem rv_ne : k.density * k.velocity ≠ 0 := mul_ne_zero (rho_ne k) (vel_ne k)

theorem rho_zero (b : P3) : (conv k b).rho = 0 ↔ b.rho = 0 := by
  unfold conv
  simp [rho_ne k]

theorem speedChange_conv (γ : ℝ) (b : P3) (p : ℝ) :
    speedChange γ (conv k b) (press k * p) = k.velocity * speedChange γ b p := by
  unfold speedChange
  simp only [root_conv, rho_zero, sound3_conv]
  have e : (conv k b).p = press k * b.p := rfl
  simp only [e, ge_iff_le, mul_le_mul_iff_right₀ (pp k), mul_div_mul_left _ _ (pp k).ne']
  by_cases h : b.p ≤ p
  · simp only [if_pos h]
    rw [← mul_sub, show press k * (p - b.p) = k.density * k.velocity * (k.velocity * (p - b.p)) by unfold press; ring,
      mul_div_mul_left _ _ (rv_ne k), mul_div_assoc]
  · simp only [if_neg h]
    split_ifs <;> ring

theorem speedChangePrime_conv (γ : ℝ) (b : P3) (p : ℝ) :
    speedChangePrime γ (conv k b) (press k * p) = k.velocity / press k * speedChangePrime γ b p := by
  have hu : k.velocity / press k = (k.density * k.velocity)⁻¹ := by
    unfold press
    have := rho_ne k
    have := vel_ne k
    field_simp
  unfold speedChangePrime
  simp only [root_conv, rho_zero, sound3_conv, hu]
  simp only [bigP_conv]
  have e : (conv k b).p = press k * b.p := rfl
  simp only [e, ge_iff_le, mul_le_mul_iff_right₀ (pp k), mul_div_mul_left _ _ (pp k).ne']
  by_cases h : b.p ≤ p
  · simp only [if_pos h]
    rw [show (γ + 1) / 4 * (press k * b.p - press k * p) = press k * ((γ + 1) / 4 * (b.p - p)) by ring,
      mul_div_mul_left _ _ (pp k).ne', ← div_eq_inv_mul, div_div, mul_comm (Real.sqrt _)]
  · simp only [if_neg h]
    have e2 : (conv k b).rho = k.density * b.rho := rfl
    have e3 : ∀ x, (if b.rho = 0 then 0 else k.velocity * x) = k.velocity * if b.rho = 0 then 0 else x := by
      intro x
      split_ifs
      · rw [mul_zero]
      · rfl
    rw [e2, e3, ← div_eq_inv_mul, div_div]
    congr 1
    ring

theorem pressureFn_conv (γ : ℝ) (l r : P3) (p : ℝ) :
    pressureFn γ (conv k l) (conv k r) (press k * p) = k.velocity * pressureFn γ l r p := by
  unfold pressureFn
  rw [speedChange_conv, speedChange_conv]
  unfold conv
  ring

theorem pressureFnPrime_conv (γ : ℝ) (l r : P3) (p : ℝ) :
    pressureFnPrime γ (conv k l) (conv k r) (press k * p) = k.velocity / press k * pressureFnPrime γ l r p := by
  unfold pressureFnPrime
  rw [speedChangePrime_conv, speedChangePrime_conv]
  ring

theorem halve_conv {f g : ℝ → ℝ} (h : ∀ x, g (press k * x) = k.velocity * f x) (n : Nat) (x : ℝ) :
    halve g n (press k * x) = (halve f n x).map (press k * ·) := by
  induction n generalizing x with
  | zero =>
    unfold halve
    simp only [h, gt_iff_lt, pos_vel]
    split_ifs <;> rfl
  | succ n ih =>
    unfold halve
    simp only [h, gt_iff_lt, pos_vel, mul_assoc, ih]
    split_ifs <;> rfl

theorem newton_conv {f g f' g' : ℝ → ℝ} (h : ∀ x, g (press k * x) = k.velocity * f x)
    (h' : ∀ x, g' (press k * x) = k.velocity / press k * f' x) (eps : ℝ) (n : Nat) (x : ℝ) :
    newton g g' (k.velocity * eps) n (press k * x) = (newton f f' eps n x).map (press k * ·) := by
  have hc : ∀ x, k.velocity * f x < -(k.velocity * eps) ↔ f x < -eps := by
    intro x
    rw [← mul_neg]
    exact mul_lt_mul_iff_right₀ k.velocity_pos
  induction n generalizing x with
  | zero =>
    unfold newton
    simp only [h, hc]
    split_ifs <;> rfl
  | succ n ih =>
    unfold newton
    simp only [h, h', hc]
    have e : press k * x - k.velocity * f x / (k.velocity / press k * f' x) = press k * (x - f x / f' x) := by
      have h1 : k.velocity * f x / (k.velocity / press k * f' x) = press k * (f x / f' x) := by
        rw [div_mul_eq_mul_div, div_div_eq_mul_div, mul_assoc, mul_div_mul_left _ _ (vel_ne k), mul_comm (f x),
          mul_div_assoc]
      rw [h1]
      ring
    rw [e, ih]
    split_ifs <;> rfl

/-- Without a change of the unit of velocity, that of pressure does not matter. -/
theorem starPressure_conv (h1 : k.velocity = 1) (fuel : Nat) (γ : ℝ) (l r : P3) :
    starPressure fuel γ (conv k l) (conv k r) = (starPressure fuel γ l r).map (press k * ·) := by
  unfold starPressure findRoot
  have e : (conv k l).p = press k * l.p := rfl
  rw [e, halve_conv k (pressureFn_conv k γ l r)]
  have := newton_conv k (pressureFn_conv k γ l r) (pressureFnPrime_conv k γ l r) (1 / 100000000) fuel
  rw [h1, one_mul] at this
  cases halve (pressureFn γ l r) fuel l.p with
  | none => rfl
  | some x => exact this x

/-! ### Waves -/

theorem shockSpeed_conv (b a : P3) : shockSpeed (conv k b) (conv k a) = k.velocity * shockSpeed b a := by
  unfold shockSpeed conv
  dsimp only
  have e : (k.velocity * a.u - k.velocity * b.u) * (k.density * b.rho) =
      k.density * k.velocity * ((a.u - b.u) * b.rho) := by ring
  have e2 : press k * a.p - press k * b.p = k.density * k.velocity * (k.velocity * (a.p - b.p)) := by
    unfold press
    ring
  simp only [e, e2, ne_eq, mul_eq_zero, (mul_eq_zero.not.1 (rv_ne k) : ¬ (k.density = 0 ∨ k.velocity = 0)), false_or,
    mul_div_mul_left _ _ (rv_ne k)]
  split_ifs <;> ring

theorem shockDensity_conv (b a : P3) : shockDensity (conv k b) (conv k a) = k.density * shockDensity b a := by
  unfold shockDensity
  rw [shockSpeed_conv]
  unfold conv
  dsimp only
  rw [← mul_sub, ← mul_sub, mul_div_mul_left _ _ (vel_ne k), mul_assoc]

theorem nearShock1_conv (b a : P3) : nearShock1 (conv k b) (conv k a) = conv k (nearShock1 b a) := by
  unfold nearShock1
  simp only [shockSpeed_conv, shockDensity_conv, neg_vel]
  split_ifs <;> rfl

theorem nearShock3_conv (b a : P3) : nearShock3 (conv k b) (conv k a) = conv k (nearShock3 b a) := by
  unfold nearShock3
  simp only [shockSpeed_conv, shockDensity_conv, gt_iff_lt, pos_vel]
  split_ifs <;> rfl

theorem insideExpansion_conv {γ : ℝ} (hγ : 1 < γ) {s : P3} (h : Good s) (g : ℝ) :
    insideExpansion γ ((conv k s).p / (conv k s).rho ^ γ) (k.velocity * g) =
      conv k (insideExpansion γ (s.p / s.rho ^ γ) g) := by
  have hd := k.density_pos
  have hv := k.velocity_pos
  have hr := Real.rpow_pos_of_pos h.1 γ
  have hp := h.2
  have hdg := Real.rpow_pos_of_pos hd γ
  have key : ((γ - 1) / (γ + 1) * (k.velocity * g) * ((γ - 1) / (γ + 1) * (k.velocity * g)) /
      ((conv k s).p / (conv k s).rho ^ γ) * (1 / γ)) ^ (1 / (γ - 1)) =
      k.density * ((γ - 1) / (γ + 1) * g * ((γ - 1) / (γ + 1) * g) / (s.p / s.rho ^ γ) * (1 / γ)) ^ (1 / (γ - 1)) := by
    have e1 : (conv k s).rho ^ γ = k.density ^ γ * s.rho ^ γ := Real.mul_rpow hd.le h.1.le
    have e2 : k.density ^ γ = k.density ^ (γ - 1) * k.density := by
      rw [← Real.rpow_add_one hd.ne', sub_add_cancel]
    have e3 : (γ - 1) / (γ + 1) * (k.velocity * g) * ((γ - 1) / (γ + 1) * (k.velocity * g)) /
        ((conv k s).p / (conv k s).rho ^ γ) * (1 / γ) =
        k.density ^ (γ - 1) * ((γ - 1) / (γ + 1) * g * ((γ - 1) / (γ + 1) * g) / (s.p / s.rho ^ γ) * (1 / γ)) := by
      rw [e1, e2]
      unfold conv press
      dsimp only
      have := hd.ne'
      have := hv.ne'
      have := hr.ne'
      have := hp.ne'
      have : γ ≠ 0 := by linarith
      have : γ + 1 ≠ 0 := by linarith
      field_simp
    have h0 : 0 ≤ (γ - 1) / (γ + 1) * g * ((γ - 1) / (γ + 1) * g) / (s.p / s.rho ^ γ) * (1 / γ) :=
      mul_nonneg (div_nonneg (mul_self_nonneg _) (div_pos hp hr).le) (by
        have : (0 : ℝ) < γ := by linarith
        positivity)
    rw [e3, Real.mul_rpow (Real.rpow_pos_of_pos hd _).le h0, ← Real.rpow_mul hd.le,
      mul_one_div_cancel (by linarith : γ - 1 ≠ 0), Real.rpow_one]
  unfold insideExpansion
  dsimp only
  rw [key]
  generalize (((γ - 1) / (γ + 1) * g * ((γ - 1) / (γ + 1) * g) / (s.p / s.rho ^ γ) * (1 / γ)) ^ (1 / (γ - 1))) = x
  unfold conv press
  simp only [P3.mk.injEq, true_and]
  constructor <;> ring

theorem behind_conv (γ p a : ℝ) : γ * (press k * p) / (k.velocity * a * (k.velocity * a)) = k.density * (γ * p / (a * a)) := by
  rw [show γ * (press k * p) = k.velocity ^ 2 * (k.density * (γ * p)) by unfold press; ring,
    show k.velocity * a * (k.velocity * a) = k.velocity ^ 2 * (a * a) by ring,
    mul_div_mul_left _ _ (pow_ne_zero 2 (vel_ne k)), mul_div_assoc]

theorem nearExpansion1_conv {γ : ℝ} (hγ : 1 < γ) {b : P3} (h : Good b) (a : P3) :
    nearExpansion1 γ (conv k b) (conv k a) = conv k (nearExpansion1 γ b a) := by
  unfold nearExpansion1
  simp only [sound3_conv]
  have e1 : (conv k b).u = k.velocity * b.u := rfl
  have e2 : (conv k a).u = k.velocity * a.u := rfl
  have e3 : k.velocity * b.u + 2 / (γ - 1) * (k.velocity * sound3 γ b) =
      k.velocity * (b.u + 2 / (γ - 1) * sound3 γ b) := by ring
  have e4 : k.velocity * sound3 γ b + (γ - 1) / 2 * (k.velocity * b.u - k.velocity * a.u) =
      k.velocity * (sound3 γ b + (γ - 1) / 2 * (b.u - a.u)) := by ring
  have e5 : (conv k a).p = press k * a.p := rfl
  simp only [e1, e2, e3, e4, e5]
  simp only [← mul_sub, neg_vel, gt_iff_lt, pos_vel, behind_conv, insideExpansion_conv k hγ h]
  split_ifs <;> rfl

theorem nearExpansion3_conv {γ : ℝ} (hγ : 1 < γ) {b : P3} (h : Good b) (a : P3) :
    nearExpansion3 γ (conv k b) (conv k a) = conv k (nearExpansion3 γ b a) := by
  unfold nearExpansion3
  simp only [sound3_conv]
  have e1 : (conv k b).u = k.velocity * b.u := rfl
  have e2 : (conv k a).u = k.velocity * a.u := rfl
  have e3 : k.velocity * b.u - 2 / (γ - 1) * (k.velocity * sound3 γ b) =
      k.velocity * (b.u - 2 / (γ - 1) * sound3 γ b) := by ring
  have e4 : k.velocity * sound3 γ b - (γ - 1) / 2 * (k.velocity * b.u - k.velocity * a.u) =
      k.velocity * (sound3 γ b - (γ - 1) / 2 * (b.u - a.u)) := by ring
  have e5 : (conv k a).p = press k * a.p := rfl
  simp only [e1, e2, e3, e4, e5]
  simp only [← mul_add, neg_vel, gt_iff_lt, pos_vel, behind_conv, insideExpansion_conv k hγ h]
  split_ifs <;> rfl

theorem nearVacuum_conv {γ : ℝ} (hγ : 1 < γ) {l r : P3} (hl : Good l) (hr : Good r) :
    nearVacuum γ (conv k l) (conv k r) = conv k (nearVacuum γ l r) := by
  unfold nearVacuum
  simp only [sound3_conv]
  have e1 : (conv k l).u = k.velocity * l.u := rfl
  have e2 : (conv k r).u = k.velocity * r.u := rfl
  have e3 : k.velocity * l.u + k.velocity * sound3 γ l * (2 / (γ - 1)) =
      k.velocity * (l.u + sound3 γ l * (2 / (γ - 1))) := by ring
  have e4 : k.velocity * r.u - k.velocity * sound3 γ r * (2 / (γ - 1)) =
      k.velocity * (r.u - sound3 γ r * (2 / (γ - 1))) := by ring
  simp only [e1, e2, e3, e4]
  simp only [← mul_add, neg_vel, gt_iff_lt, ge_iff_le, nonneg_vel, mul_lt_mul_iff_right₀ k.velocity_pos,
    insideExpansion_conv k hγ hl, insideExpansion_conv k hγ hr]
  split_ifs
  · rfl
  · rfl
  · rfl
  · rfl
  · exact (conv_zero k).symm

theorem ordinary_conv {γ : ℝ} (hγ : 1 < γ) {l r : P3} (hl : Good l) (hr : Good r) (p : ℝ) :
    ordinary γ (conv k l) (conv k r) (press k * p) =
      (conv k (ordinary γ l r p).1, k.velocity * (ordinary γ l r p).2) := by
  unfold ordinary
  dsimp only
  rw [speedChange_conv, speedChange_conv]
  have e : 1 / 2 * ((conv k r).u + k.velocity * speedChange γ r p + (conv k l).u - k.velocity * speedChange γ l p) =
      k.velocity * (1 / 2 * (r.u + speedChange γ r p + l.u - speedChange γ l p)) := by
    unfold conv
    ring
  have e1 : (conv k l).p = press k * l.p := rfl
  have e2 : (conv k r).p = press k * r.p := rfl
  rw [e, e1, e2]
  generalize 1 / 2 * (r.u + speedChange γ r p + l.u - speedChange γ l p) = w
  have es : (⟨0, k.velocity * w, press k * p⟩ : P3) = conv k ⟨0, w, p⟩ := by simp [conv]
  simp only [es, pos_vel, ge_iff_le, mul_le_mul_iff_right₀ (pp k), nearShock1_conv, nearShock3_conv,
    nearExpansion1_conv k hγ hl, nearExpansion3_conv k hγ hr, Prod.mk.injEq, and_true]
  split_ifs <;> rfl

/-- The solver on the axis: in any units if a vacuum appears, otherwise in those with the same velocity. -/
theorem axis_conv {γ : ℝ} (hγ : 1 < γ) {l r : P3} (hl : Good l) (hr : Good r)
    (h : k.velocity = 1 ∨ ¬ pressureFn γ l r 0 < 0) (fuel : Nat) :
    axis fuel γ (conv k l) (conv k r) =
      (axis fuel γ l r).map fun o => (conv k o.1, o.2.map (k.velocity * ·)) := by
  have h0 : pressureFn γ (conv k l) (conv k r) 0 = k.velocity * pressureFn γ l r 0 := by
    have := pressureFn_conv k γ l r 0
    rwa [mul_zero] at this
  unfold axis
  simp only [gt_iff_lt, if_pos (conv_good k hl).1, if_pos (conv_good k hr).1, if_pos hl.1, if_pos hr.1, h0, neg_vel]
  by_cases hv : pressureFn γ l r 0 < 0
  · simp only [if_pos hv]
    rw [starPressure_conv k (h.resolve_right (not_not.2 hv)), Option.map_map, Option.map_map]
    congr 1
    funext p
    simp only [Function.comp_apply, ordinary_conv k hγ hl hr, Option.map_some]
  · simp only [if_neg hv, nearVacuum_conv k hγ hl hr, Option.map_some, Option.map_none]

end MiniCFD.Units
