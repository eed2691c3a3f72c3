import Verif.Spec.Units
import Verif.Lemmas.Euler
import Mathlib.Tactic.Ring
import Mathlib.Tactic.FieldSimp
import Mathlib.Tactic.Positivity
import Mathlib.Tactic.Linarith

/-! Fluxes of states in other units. -/

namespace MiniCFD.Units

open MiniCFD.Spec.Units MiniCFD.Euler MiniCFD.Spec.Euler

variable {d : Nat} (k : Units)

theorem rho_ne : k.density ≠ 0 := k.density_pos.ne'
theorem vel_ne : k.velocity ≠ 0 := k.velocity_pos.ne'

theorem zero_prim : k.prim (Tup.zero : Tup d) = Tup.zero := by
  unfold Units.prim Tup.zero
  simp
  rfl

theorem zero_state : k.state (Tup.zero : Tup d) = Tup.zero := by
  unfold Units.state Tup.zero
  simp
  rfl

theorem neg_mass (x : ℝ) : k.density * x < 0 ↔ x < 0 := by
  constructor
  · intro h
    by_contra hx
    exact absurd h (not_lt.2 (mul_nonneg k.density_pos.le (not_lt.1 hx)))
  · exact fun h => mul_neg_of_pos_of_neg k.density_pos h

theorem press_pos : 0 < k.density * k.velocity ^ 2 := by
  have := k.density_pos
  have := k.velocity_pos
  positivity

theorem neg_energy (x : ℝ) : k.density * k.velocity ^ 2 * x < 0 ↔ x < 0 := by
  constructor
  · intro h
    by_contra hx
    exact absurd h (not_lt.2 (mul_nonneg (press_pos k).le (not_lt.1 hx)))
  · exact fun h => mul_neg_of_pos_of_neg (press_pos k) h

theorem zeroIf_state (s : Tup d) : setZeroIfNegative (k.state s) = k.state (setZeroIfNegative s) := by
  unfold setZeroIfNegative
  have e1 : (k.state s).mass = k.density * s.mass := rfl
  have e2 : (k.state s).energy = k.density * k.velocity ^ 2 * s.energy := rfl
  simp only [e1, neg_mass]
  by_cases h : s.mass < 0
  · simp only [if_pos h, apply_ite Tup.energy, zero_state]
    simp [Tup.zero, zero_state]
    exact (zero_state k).symm
  · simp only [if_neg h, e2, neg_energy]
    split_ifs
    · exact (zero_state k).symm
    · rfl

theorem zeroIf_prim (s : Tup d) : setZeroIfNegative (k.prim s) = k.prim (setZeroIfNegative s) := by
  unfold setZeroIfNegative
  have e1 : (k.prim s).mass = k.density * s.mass := rfl
  have e2 : (k.prim s).energy = k.density * k.velocity ^ 2 * s.energy := rfl
  simp only [e1, neg_mass]
  by_cases h : s.mass < 0
  · simp only [if_pos h, apply_ite Tup.energy]
    simp [Tup.zero]
    exact (zero_prim k).symm
  · simp only [if_neg h, e2, neg_energy]
    split_ifs
    · exact (zero_prim k).symm
    · rfl

theorem squares (v : ℝ) (f : Fin (d + 1) → ℝ) : ∑ i, v * f i * (v * f i) = v ^ 2 * ∑ i, f i * f i := by
  rw [Finset.mul_sum]
  exact Finset.sum_congr rfl fun i _ => by ring

theorem fine_zeroIf {c : Tup d} (h : Fine k c) : Fine k (setZeroIfNegative c) := by
  unfold setZeroIfNegative
  dsimp only
  split_ifs
  · exact fun _ => .inr rfl
  · exact fun _ => .inr rfl
  · exact fun _ => .inr rfl
  · exact h

theorem toPrim_state (γ : ℝ) {c : Tup d} (hc : Fine k c) : toPrim γ (k.state c) = k.prim (toPrim γ c) := by
  unfold toPrim
  rw [zeroIf_state]
  have hs := fine_zeroIf k hc
  generalize setZeroIfNegative c = s at hs
  dsimp only
  have e1 : (k.state s).mass = k.density * s.mass := rfl
  by_cases h : s.mass = 0
  · have h1 : (k.state s).mass = 0 := by rw [e1, h, mul_zero]
    rw [if_neg (by simpa using h1), if_neg (by simpa using h)]
    rcases hs h with h2 | h2
    · simp only [Units.state, Units.prim, h2, one_mul]
    · simp only [Units.state, Units.prim, h2, Pi.zero_apply, mul_zero]
  · have h1 : (k.state s).mass ≠ 0 := by rw [e1]; exact mul_ne_zero (rho_ne k) h
    rw [if_pos h1, if_pos h, ← zeroIf_prim]
    congr 1
    have hk := rho_ne k
    simp only [Units.state, Units.prim, dynamicPressure, Tup.mk.injEq, true_and]
    have e : ∀ i, k.density * k.velocity * s.mom i / (k.density * s.mass) = k.velocity * (s.mom i / s.mass) := by
      intro i
      rw [mul_assoc, mul_div_mul_left _ _ hk, mul_div_assoc]
    refine ⟨funext e, ?_⟩
    simp only [e, squares]
    ring

/-! ### Scalars -/

theorem nonpos_mass (x : ℝ) : k.density * x ≤ 0 ↔ x ≤ 0 := by
  have := k.density_pos
  constructor
  · intro h
    by_contra hx
    exact absurd h (not_le.2 (mul_pos this (not_le.1 hx)))
  · exact fun h => mul_nonpos_of_nonneg_of_nonpos this.le h

theorem nonpos_energy (x : ℝ) : k.density * k.velocity ^ 2 * x ≤ 0 ↔ x ≤ 0 := by
  have := press_pos k
  constructor
  · intro h
    by_contra hx
    exact absurd h (not_le.2 (mul_pos this (not_le.1 hx)))
  · exact fun h => mul_nonpos_of_nonneg_of_nonpos this.le h

theorem sound_ratio (γ p m : ℝ) : Real.sqrt (γ * (k.density * k.velocity ^ 2 * p) / (k.density * m)) =
    k.velocity * Real.sqrt (γ * p / m) := by
  have e : γ * (k.density * k.velocity ^ 2 * p) / (k.density * m) = k.velocity ^ 2 * (γ * p / m) := by
    rw [show γ * (k.density * k.velocity ^ 2 * p) = k.density * (k.velocity ^ 2 * (γ * p)) by ring,
      mul_div_mul_left _ _ (rho_ne k), mul_div_assoc]
  rw [e, Real.sqrt_mul (sq_nonneg _), Real.sqrt_sq k.velocity_pos.le]

theorem sound_prim (γ : ℝ) (s : Tup d) : speedOfSound γ (k.prim s) = k.velocity * speedOfSound γ s := by
  unfold speedOfSound
  have e1 : (k.prim s).mass = k.density * s.mass := rfl
  have e2 : (k.prim s).energy = k.density * k.velocity ^ 2 * s.energy := rfl
  simp only [e1, e2, nonpos_mass, nonpos_energy, sound_ratio]
  split_ifs
  · rw [mul_zero]
  · rfl

theorem normal_prim (F : Frame d) (s : Tup d) : normalVelocity F (k.prim s) = k.velocity * normalVelocity F s := by
  unfold normalVelocity Units.prim
  rw [Finset.mul_sum]
  exact Finset.sum_congr rfl fun i _ => by ring

theorem turned_prim (F : Frame d) (s : Tup d) : globalToNormal F (k.prim s) = k.prim (globalToNormal F s) := by
  unfold globalToNormal Units.prim
  simp only [Tup.mk.injEq, true_and, and_true, Finset.mul_sum]
  funext i
  exact Finset.sum_congr rfl fun i _ => by ring

theorem turned_flux (F : Frame d) (s : Tup d) : normalToGlobal F (k.flux s) = k.flux (normalToGlobal F s) := by
  unfold normalToGlobal Units.flux
  simp only [Tup.mk.injEq, true_and, and_true, Finset.mul_sum]
  funext i
  exact Finset.sum_congr rfl fun i _ => by ring

theorem toCons_prim (γ : ℝ) (s : Tup d) : toCons γ (k.prim s) = k.state (toCons γ s) := by
  unfold toCons dynamicPressure Units.prim Units.state
  simp only [Tup.mk.injEq, true_and, squares]
  refine ⟨funext fun i => by ring, by ring⟩

theorem primFlux_prim (γ : ℝ) (s : Tup d) : primFlux γ (k.prim s) = k.flux (primFlux γ s) := by
  unfold primFlux
  simp only [toCons_prim]
  unfold Units.prim Units.state Units.flux Tup.scale
  simp only [Tup.mk.injEq, Pi.smul_apply, smul_eq_mul]
  refine ⟨by ring, funext fun i => ?_, by ring⟩
  split_ifs <;> ring

theorem fluxOfPrim_prim (γ : ℝ) (F : Frame d) (s : Tup d) : fluxOfPrim γ F (k.prim s) = k.flux (fluxOfPrim γ F s) := by
  unfold fluxOfPrim
  rw [turned_prim, primFlux_prim, turned_flux]

theorem fluxMatrix_state (γ : ℝ) {c : Tup d} (hc : Fine k c) (j : Fin (d + 1)) :
    fluxMatrix γ (k.state c) j = k.flux (fluxMatrix γ c j) := by
  unfold fluxMatrix
  simp only [toPrim_state k γ hc]
  unfold Units.prim Units.state Units.flux
  simp only [Tup.mk.injEq, true_and]
  refine ⟨funext fun i => ?_, by ring⟩
  split_ifs <;> ring

/-! ### HLLC -/

theorem getQ_press (γ a b : ℝ) : getQ γ (k.density * k.velocity ^ 2 * a) (k.density * k.velocity ^ 2 * b) = getQ γ a b := by
  unfold getQ
  rw [mul_div_mul_left _ _ (press_pos k).ne']
  simp only [mul_le_mul_iff_right₀ (press_pos k)]

theorem estimate_prim (γ : ℝ) (l r : Tup d) :
    pEstimate γ (k.prim l) (k.prim r) = k.density * k.velocity ^ 2 * pEstimate γ l r := by
  unfold pEstimate
  simp only [sound_prim]
  rw [mul_max_of_nonneg _ _ (press_pos k).le, mul_zero]
  congr 1
  unfold Units.prim
  ring

theorem waveLeft_prim (γ : ℝ) (l r : Tup d) : waveLeft γ (k.prim l) (k.prim r) = k.velocity * waveLeft γ l r := by
  unfold waveLeft
  rw [sound_prim, estimate_prim]
  have e : (k.prim l).energy = k.density * k.velocity ^ 2 * l.energy := rfl
  rw [e, getQ_press]
  unfold Units.prim
  ring

theorem waveRight_prim (γ : ℝ) (l r : Tup d) : waveRight γ (k.prim l) (k.prim r) = k.velocity * waveRight γ l r := by
  unfold waveRight
  rw [sound_prim, estimate_prim]
  have e : (k.prim r).energy = k.density * k.velocity ^ 2 * r.energy := rfl
  rw [e, getQ_press]
  unfold Units.prim
  ring

theorem waveStar_prim (l r : Tup d) (a b : ℝ) :
    waveStar (k.prim l) (k.prim r) (k.velocity * a) (k.velocity * b) = k.velocity * waveStar l r a b := by
  unfold waveStar Units.prim
  dsimp only
  rw [← mul_div_assoc, ← mul_div_mul_left (c := k.density * k.velocity) _
    (l.mass * (a - l.mom 0) - r.mass * (b - r.mom 0)) (mul_ne_zero (rho_ne k) (vel_ne k))]
  congr 1 <;> ring

theorem starFlux_prim (γ : ℝ) (s : Tup d) (a b : ℝ) :
    starFlux γ (k.prim s) (k.velocity * a) (k.velocity * b) = k.flux (starFlux γ s a b) := by
  unfold starFlux
  dsimp only
  rw [primFlux_prim, toCons_prim]
  have et : (k.prim s).mass * (k.velocity * a - (k.prim s).mom 0) / (k.velocity * a - k.velocity * b) =
      k.density * (s.mass * (a - s.mom 0) / (a - b)) := by
    unfold Units.prim
    dsimp only
    rw [← mul_div_assoc, ← mul_sub, ← mul_sub, show k.density * s.mass * (k.velocity * (a - s.mom 0)) =
      k.velocity * (k.density * (s.mass * (a - s.mom 0))) by ring, mul_div_mul_left _ _ (vel_ne k)]
  have ee : ((k.prim s).energy / (γ - 1) + (k.prim s).mass * (∑ i, (k.prim s).mom i * (k.prim s).mom i) * (1 / 2)) /
      (k.prim s).mass = k.velocity ^ 2 * ((s.energy / (γ - 1) + s.mass * (∑ i, s.mom i * s.mom i) * (1 / 2)) / s.mass) := by
    unfold Units.prim
    simp only [squares]
    rw [← mul_div_assoc, ← mul_div_mul_left (c := k.density) _ s.mass (rho_ne k)]
    congr 1
    ring
  have ep : (k.prim s).energy / ((k.prim s).mass * (k.velocity * a - (k.prim s).mom 0)) =
      k.velocity * (s.energy / (s.mass * (a - s.mom 0))) := by
    unfold Units.prim
    dsimp only
    rw [← mul_div_assoc, ← mul_div_mul_left (c := k.density * k.velocity) _ (s.mass * (a - s.mom 0))
      (mul_ne_zero (rho_ne k) (vel_ne k))]
    congr 1 <;> ring
  rw [et, ee, ep]
  unfold Units.flux Units.state Tup.add Tup.scale Tup.sub
  simp only [Tup.mk.injEq, Units.prim]
  refine ⟨by ring, funext fun i => ?_, by ring⟩
  simp only [Pi.add_apply, Pi.smul_apply, Pi.sub_apply, smul_eq_mul]
  split_ifs <;> ring

theorem nonneg_vel (x : ℝ) : 0 ≤ k.velocity * x ↔ 0 ≤ x := mul_nonneg_iff_of_pos_left k.velocity_pos

theorem nonpos_vel (x : ℝ) : k.velocity * x ≤ 0 ↔ x ≤ 0 := by
  have := nonneg_vel k (-x)
  rw [mul_neg] at this
  constructor
  · intro h
    linarith [this.1 (by linarith)]
  · intro h
    linarith [this.2 (by linarith)]

theorem neg_vel (x : ℝ) : k.velocity * x < 0 ↔ x < 0 := by
  rw [← not_le, ← not_le, nonneg_vel]

theorem pos_vel (x : ℝ) : 0 < k.velocity * x ↔ 0 < x := by
  rw [← not_le, ← not_le, nonpos_vel]

theorem hllc_prim (γ : ℝ) (l r : Tup d) : hllc γ (k.prim l) (k.prim r) = k.flux (hllc γ l r) := by
  unfold hllc
  simp only [waveLeft_prim, waveRight_prim, waveStar_prim, nonneg_vel, nonpos_vel, starFlux_prim, primFlux_prim]
  split_ifs <;> rfl

/-! ### AUSM -/

theorem ausmH_prim (γ : ℝ) (s : Tup d) : ausmH γ (k.prim s) = k.velocity ^ 2 * ausmH γ s := by
  unfold ausmH
  rw [sound_prim]
  unfold Units.prim
  simp only [squares]
  ring

theorem ausmPositive_prim (γ : ℝ) (s : Tup d) : ausmPositive γ (k.prim s) = k.flux (ausmPositive γ s) := by
  unfold ausmPositive
  have em : (k.prim s).mom 0 / (k.velocity * speedOfSound γ s) = s.mom 0 / speedOfSound γ s := by
    show k.velocity * s.mom 0 / _ = _
    rw [mul_div_mul_left _ _ (vel_ne k)]
  simp only [sound_prim, em, ausmH_prim]
  unfold Units.flux Units.prim
  simp only [Tup.mk.injEq]
  refine ⟨by ring, funext fun i => ?_, by ring⟩
  split_ifs <;> ring

theorem ausmNegative_prim (γ : ℝ) (s : Tup d) : ausmNegative γ (k.prim s) = k.flux (ausmNegative γ s) := by
  unfold ausmNegative
  have em : (k.prim s).mom 0 / (k.velocity * speedOfSound γ s) = s.mom 0 / speedOfSound γ s := by
    show k.velocity * s.mom 0 / _ = _
    rw [mul_div_mul_left _ _ (vel_ne k)]
  simp only [sound_prim, em, ausmH_prim]
  unfold Units.flux Units.prim
  simp only [Tup.mk.injEq]
  refine ⟨by ring, funext fun i => ?_, by ring⟩
  split_ifs <;> ring

theorem flux_add (s t : Tup d) : Tup.add (k.flux s) (k.flux t) = k.flux (Tup.add s t) := by
  unfold Tup.add Units.flux
  simp only [Tup.mk.injEq]
  refine ⟨by ring, funext fun i => ?_, by ring⟩
  simp only [Pi.add_apply]
  ring

theorem ausm_prim (γ : ℝ) (l r : Tup d) : ausm γ (k.prim l) (k.prim r) = k.flux (ausm γ l r) := by
  unfold ausm
  rw [ausmPositive_prim, ausmNegative_prim, flux_add]

theorem upwind_state {γ : ℝ} {solver : Tup d → Tup d → Tup d} (hs : ∀ l r, solver (k.prim l) (k.prim r) = k.flux (solver l r))
    (F : Frame d) {l r : Tup d} (hl : Fine k l) (hr : Fine k r) :
    upwind γ solver F (k.state l) (k.state r) = k.flux (upwind γ solver F l r) := by
  unfold upwind
  rw [toPrim_state k γ hl, toPrim_state k γ hr, turned_prim, turned_prim, hs, turned_flux]

/-! ### Boundaries -/

theorem solidWall_state (γ : ℝ) (F : Frame d) {c : Tup d} (hc : Fine k c) :
    solidWall γ F (k.state c) = k.flux (solidWall γ F c) := by
  unfold solidWall
  rw [toPrim_state k γ hc, ← turned_flux]
  unfold Units.prim Units.flux
  simp only [mul_zero, mul_ite]

theorem supersonic_state (γ : ℝ) (F : Frame d) {c : Tup d} (hc : Fine k c) :
    supersonicInlet γ F (k.state c) = k.flux (supersonicInlet γ F c) := by
  unfold supersonicInlet
  rw [toPrim_state k γ hc, fluxOfPrim_prim]

theorem sign_sound (a x : ℝ) : (if 0 < x then k.velocity * a else -(k.velocity * a)) =
    k.velocity * if 0 < x then a else -a := by
  split_ifs <;> ring

theorem jump_sound (x a : ℝ) : k.density * k.velocity ^ 2 * x / (k.velocity * a * (k.velocity * a)) =
    k.density * (x / (a * a)) := by
  rw [← mul_div_assoc, ← mul_div_mul_left (c := k.velocity ^ 2) _ (a * a) (pow_ne_zero 2 (vel_ne k))]
  congr 1 <;> ring

theorem jump_impedance (x y : ℝ) : k.density * k.velocity ^ 2 * x / (k.density * k.velocity * y) =
    k.velocity * (x / y) := by
  rw [← mul_div_assoc, ← mul_div_mul_left (c := k.density * k.velocity) _ y (mul_ne_zero (rho_ne k) (vel_ne k))]
  congr 1
  ring

theorem inletState_state (γ : ℝ) (F : Frame d) {ci co : Tup d} (hi : Fine k ci) (ho : Fine k co) :
    inletState γ F (k.state ci) (k.state co) = k.prim (inletState γ F ci co) := by
  unfold inletState
  simp only [toPrim_state k γ hi, toPrim_state k γ ho, normal_prim, sound_prim, gt_iff_lt, pos_vel, sign_sound]
  generalize toPrim γ ci = pi
  generalize toPrim γ co = po
  generalize (if 0 < normalVelocity F po then speedOfSound γ pi else -speedOfSound γ pi) = s
  generalize normalVelocity F po = uo
  generalize normalVelocity F pi = ui
  generalize speedOfSound γ pi = a
  unfold Units.prim
  dsimp only
  have e1 : k.density * pi.mass * (k.velocity * s) = k.density * k.velocity * (pi.mass * s) := by ring
  have e2 : (k.density * k.velocity ^ 2 * pi.energy + k.density * k.velocity ^ 2 * po.energy +
      k.density * k.velocity * (pi.mass * s) * (k.velocity * (uo - ui))) * (1 / 2) =
      k.density * k.velocity ^ 2 * ((pi.energy + po.energy + pi.mass * s * (uo - ui)) * (1 / 2)) := by ring
  simp only [e1, ← mul_sub]
  simp only [e2, ← mul_sub, jump_sound, jump_impedance, Tup.mk.injEq, true_and, and_true]
  funext j
  ring

theorem outletState_state (γ : ℝ) (F : Frame d) {ci co : Tup d} (hi : Fine k ci) (ho : Fine k co) :
    outletState γ F (k.state ci) (k.state co) = k.prim (outletState γ F ci co) := by
  unfold outletState
  simp only [toPrim_state k γ hi, toPrim_state k γ ho, normal_prim, sound_prim, gt_iff_lt, pos_vel, sign_sound]
  generalize toPrim γ ci = pi
  generalize toPrim γ co = po
  generalize (if 0 < normalVelocity F pi then speedOfSound γ pi else -speedOfSound γ pi) = s
  generalize speedOfSound γ pi = a
  unfold Units.prim
  dsimp only
  have e1 : k.density * pi.mass * (k.velocity * s) = k.density * k.velocity * (pi.mass * s) := by ring
  simp only [e1, ← mul_sub, jump_sound, jump_impedance, Tup.mk.injEq, true_and, and_true]
  funext j
  ring

theorem subsonicInlet_state (γ : ℝ) (F : Frame d) {ci co : Tup d} (hi : Fine k ci) (ho : Fine k co) :
    subsonicInlet γ F (k.state ci) (k.state co) = k.flux (subsonicInlet γ F ci co) := by
  unfold subsonicInlet
  rw [inletState_state k γ F hi ho, fluxOfPrim_prim]

theorem subsonicOutlet_state (γ : ℝ) (F : Frame d) {ci co : Tup d} (hi : Fine k ci) (ho : Fine k co) :
    subsonicOutlet γ F (k.state ci) (k.state co) = k.flux (subsonicOutlet γ F ci co) := by
  unfold subsonicOutlet
  rw [outletState_state k γ F hi ho, fluxOfPrim_prim]

theorem smart_state (γ : ℝ) (F : Frame d) {ci co : Tup d} (hi : Fine k ci) (ho : Fine k co) :
    smartBoundary γ F (k.state ci) (k.state co) = k.flux (smartBoundary γ F ci co) := by
  unfold smartBoundary
  simp only [toPrim_state k γ hi, normal_prim, sound_prim, gt_iff_lt, ← mul_add, ← mul_sub, pos_vel, neg_vel]
  split_ifs
  · exact supersonic_state k γ F ho
  · exact subsonicInlet_state k γ F hi ho
  · exact supersonic_state k γ F hi
  · exact subsonicOutlet_state k γ F hi ho

end MiniCFD.Units
