import Verif.Lemmas.UnitsExact
import Verif.Props.Exact

/-!
# C139: the exact solver and units of measurement

`FindRoot` (euler/exact.hpp:162-174) compares a velocity with `1e-8`.
-/

namespace MiniCFD.Units

open MiniCFD.Spec.Units MiniCFD.Euler MiniCFD.Spec.Euler MiniCFD.Exact MiniCFD.Spec.Exact

variable {d : Nat} (k : Units)

theorem of_prim (s : Tup d) : P3.of (k.prim s) = conv k (P3.of s) := rfl

theorem passive_prim (s : P3) (w : ℝ) (l r : Tup d) :
    setPassive (conv k s) (k.velocity * w) (k.prim l) (k.prim r) = k.prim (setPassive s w l r) := by
  unfold setPassive
  simp only [gt_iff_lt, pos_vel]
  unfold Units.prim conv press
  simp only [Tup.mk.injEq, true_and, and_true]
  funext i
  split_ifs <;> rfl

theorem call_prim {γ : ℝ} (hγ : 1 < γ) {l r : Tup d} (hl : AdmissiblePrim l) (hr : AdmissiblePrim r)
    (h : k.velocity = 1 ∨ ¬ pressureFn γ (P3.of l) (P3.of r) 0 < 0) (fuel : Nat) (starU : ℝ) :
    call fuel γ (k.velocity * starU) (k.prim l) (k.prim r) =
      (call fuel γ starU l r).map fun o => (k.flux o.1, k.velocity * o.2) := by
  unfold call
  rw [of_prim, of_prim, axis_conv k hγ (l := P3.of l) (r := P3.of r) hl hr h, Option.map_map, Option.map_map]
  congr 1
  funext o
  have e : (o.2.map (k.velocity * ·)).getD (k.velocity * starU) = k.velocity * o.2.getD starU := by
    cases o.2 <;> rfl
  simp only [Function.comp_apply, e, passive_prim, primFlux_prim]

/-- **C139**, what is true of it: two gases, of which the exact solver is told in other units.  It returns the same flux in
the new units if a vacuum appears between the gases, or if the unit of velocity is the old one.  Missing: otherwise the
flux depends on the unit of velocity, see `exact_depends`. -/
theorem exact_units_partial {γ : ℝ} (hγ : 1 < γ) {F : Frame d} {l r : Tup d} (hl : Admissible γ l)
    (hr : Admissible γ r)
    (h : k.velocity = 1 ∨ 2 / (γ - 1) * (sound γ l + sound γ r) ≤ velAlong (F 0) r - velAlong (F 0) l)
    (fuel : Nat) (starU : ℝ) :
    rotatedCall fuel γ F (k.velocity * starU) (k.state l) (k.state r) =
      (rotatedCall fuel γ F starU l r).map fun o => (k.flux o.1, k.velocity * o.2) := by
  obtain ⟨gl, ul, cl⟩ := seen_spec hγ (F := F) hl
  obtain ⟨gr, ur, cr⟩ := seen_spec hγ (F := F) hr
  have fl : Fine k l := fun h0 => absurd h0 hl.1.ne'
  have fr : Fine k r := fun h0 => absurd h0 hr.1.ne'
  have h' : k.velocity = 1 ∨ ¬ pressureFn γ (seen γ F l) (seen γ F r) 0 < 0 := by
    refine h.imp id fun h => ?_
    rw [vacuum_criterion hγ gl gr, ul, ur, cl, cr]
    exact not_lt.2 h
  unfold rotatedCall
  rw [toPrim_state k γ fl, toPrim_state k γ fr, turned_prim, turned_prim,
    call_prim k hγ (l := globalToNormal F (toPrim γ l)) (r := globalToNormal F (toPrim γ r)) gl gr h', Option.map_map,
    Option.map_map]
  congr 1
  funext o
  simp only [Function.comp_apply, turned_flux]

/-! ### What goes wrong -/

theorem newton_ge {f f' : ℝ → ℝ} {eps : ℝ} (he : 0 ≤ eps) (hf : ∀ x, 0 < x → 0 < f' x) {n : Nat} {x y : ℝ} (hx : 0 < x)
    (h : newton f f' eps n x = some y) : x ≤ y := by
  induction n generalizing x with
  | zero =>
    unfold newton at h
    split_ifs at h
    cases h
    exact le_rfl
  | succ n ih =>
    unfold newton at h
    split_ifs at h with hs
    · have h1 : f x / f' x ≤ 0 := div_nonpos_of_nonpos_of_nonneg (by linarith) (hf x hx).le
      exact (by linarith : x ≤ x - f x / f' x).trans (ih (by linarith) h)
    · cases h
      exact le_rfl

section

variable {γ ρ p δ : ℝ}

/-- Gases that differ in velocity only. -/
theorem gap (q : ℝ) : pressureFn γ ⟨ρ, 0, p⟩ ⟨ρ, -δ, p⟩ q = 2 * speedChange γ ⟨ρ, 0, p⟩ q - δ := by
  have e : speedChange γ ⟨ρ, -δ, p⟩ q = speedChange γ ⟨ρ, 0, p⟩ q := rfl
  unfold pressureFn
  rw [e]
  ring

theorem gap_here : pressureFn γ ⟨ρ, 0, p⟩ ⟨ρ, -δ, p⟩ p = -δ := by
  rw [gap]
  simp [speedChange]

theorem gap_prime (hγ : 1 < γ) (hp : 0 < p) (hρ : 0 < ρ) :
    pressureFnPrime γ ⟨ρ, 0, p⟩ ⟨ρ, -δ, p⟩ p = 2 / Real.sqrt (ρ * (γ * p)) := by
  have e : ∀ u, speedChangePrime γ ⟨ρ, u, p⟩ p = 1 / Real.sqrt (ρ * (γ * p)) := by
    intro u
    have : (γ + 1) / 2 * p + p * ((γ - 1) / 2) = γ * p := by ring
    simp [speedChangePrime, bigP, this]
  unfold pressureFnPrime
  rw [e, e]
  ring

theorem no_vacuum (hγ : 1 < γ) (hp : 0 < p) (hρ : 0 < ρ) (hδ : 0 < δ) :
    pressureFn γ ⟨ρ, 0, p⟩ ⟨ρ, -δ, p⟩ 0 < 0 := by
  rw [vacuum_criterion hγ ⟨hρ, hp⟩ ⟨hρ, hp⟩]
  have : 0 ≤ 2 / (γ - 1) * (c γ ⟨ρ, 0, p⟩ + c γ ⟨ρ, -δ, p⟩) :=
    mul_nonneg (div_nonneg (by norm_num) (by linarith)) (add_nonneg (Real.sqrt_nonneg _) (Real.sqrt_nonneg _))
  show -δ - 0 < _
  linarith

theorem halve_here (hδ : 0 < δ) (fuel : Nat) : halve (pressureFn γ ⟨ρ, 0, p⟩ ⟨ρ, -δ, p⟩) fuel p = some p := by
  cases fuel <;> unfold halve <;> rw [gap_here, if_neg (by linarith)]

/-- A small difference: the solver stops at once, and takes the state on the right. -/
theorem axis_small (hγ : 1 < γ) (hp : 0 < p) (hρ : 0 < ρ) (hδ : 0 < δ) (hs : δ ≤ 1 / 100000000) (fuel : Nat) :
    axis fuel γ ⟨ρ, 0, p⟩ ⟨ρ, -δ, p⟩ = some (⟨ρ, -δ, p⟩, some (-δ / 2)) := by
  have h1 : starPressure fuel γ ⟨ρ, 0, p⟩ ⟨ρ, -δ, p⟩ = some p := by
    unfold starPressure findRoot
    rw [halve_here hδ]
    show newton _ _ _ fuel p = some p
    cases fuel <;> unfold newton <;> rw [gap_here, if_neg (by linarith)]
  have e : ∀ u, speedChange γ ⟨ρ, u, p⟩ p = 0 := fun u => by simp [speedChange]
  unfold axis
  simp only [gt_iff_lt, hρ, if_true, no_vacuum hγ hp hρ hδ, h1, Option.map_some, Option.some.injEq]
  unfold ordinary
  simp only [e]
  have hu : (1 : ℝ) / 2 * (-δ + 0 + 0 - 0) = -δ / 2 := by ring
  rw [hu, if_neg (by linarith), if_pos (le_refl p)]
  unfold nearShock3 shockSpeed
  simp only [sub_self, zero_div]
  have hd : (-δ / 2 - -δ) * ρ ≠ 0 := mul_ne_zero (by linarith) hρ.ne'
  rw [if_pos hd, if_neg (by linarith)]

/-- A larger one, still below the speed of sound: the flux of mass is another one. -/
theorem axis_large (hγ : 1 < γ) (hp : 0 < p) (hρ : 0 < ρ) (hδ : 1 / 100000000 < δ) (hs : δ < c γ ⟨ρ, 0, p⟩) {fuel : Nat}
    {o : P3 × Option ℝ} (h : axis fuel γ ⟨ρ, 0, p⟩ ⟨ρ, -δ, p⟩ = some o) : -δ * ρ < o.1.u * o.1.rho := by
  have h0 : 0 < δ := by linarith
  have gl : Good ⟨ρ, 0, p⟩ := ⟨hρ, hp⟩
  have gr : Good ⟨ρ, -δ, p⟩ := ⟨hρ, hp⟩
  unfold axis at h
  simp only [gt_iff_lt, hρ, if_true, no_vacuum hγ hp hρ h0] at h
  obtain ⟨q, hq, rfl⟩ := Option.map_eq_some_iff.1 h
  -- The pressure after the first step at least
  set w := Real.sqrt (ρ * (γ * p)) with hw
  have hw0 : 0 < w := Real.sqrt_pos.2 (mul_pos hρ (mul_pos (by linarith) hp))
  have hq1 : p + δ * w / 2 ≤ q := by
    unfold starPressure findRoot at hq
    rw [halve_here h0] at hq
    change newton _ _ _ fuel p = some q at hq
    cases fuel with
    | zero =>
      unfold newton at hq
      rw [gap_here, if_pos (by linarith)] at hq
      cases hq
    | succ n =>
      unfold newton at hq
      rw [gap_here, if_pos (by linarith), gap_prime hγ hp hρ] at hq
      have hx : p - -δ / (2 / Real.sqrt (ρ * (γ * p))) = p + δ * w / 2 := by
        rw [← hw]
        field_simp
        ring
      rw [hx] at hq
      exact newton_ge (by norm_num) (fun x hx => pressureFnPrime_pos hγ gl gr hx)
        (by have := mul_pos h0 hw0; linarith) hq
  have hsound : w = ρ * c γ ⟨ρ, 0, p⟩ := by
    unfold c
    rw [hw, show ρ * (γ * p) = ρ ^ 2 * (γ * p / ρ) by field_simp, Real.sqrt_mul (sq_nonneg _), Real.sqrt_sq hρ.le]
  have e : speedChange γ ⟨ρ, -δ, p⟩ q = speedChange γ ⟨ρ, 0, p⟩ q := rfl
  unfold ordinary
  simp only [e]
  have hu : (1 : ℝ) / 2 * (-δ + speedChange γ ⟨ρ, 0, p⟩ q + 0 - speedChange γ ⟨ρ, 0, p⟩ q) = -δ / 2 := by ring
  have hqp : p ≤ q := by
    have := mul_pos h0 hw0
    linarith
  rw [hu, if_neg (by linarith), if_pos hqp]
  have hd : (-δ / 2 - -δ) * ρ = δ * ρ / 2 := by ring
  have hd0 : (-δ / 2 - -δ) * ρ ≠ 0 := by
    rw [hd]
    have := mul_pos h0 hρ
    linarith
  have hS : shockSpeed ⟨ρ, -δ, p⟩ ⟨0, -δ / 2, q⟩ = -δ + (q - p) / (δ * ρ / 2) := by
    unfold shockSpeed
    dsimp only
    rw [if_pos hd0, hd]
  have hS0 : 0 < shockSpeed ⟨ρ, -δ, p⟩ ⟨0, -δ / 2, q⟩ := by
    rw [hS]
    have h1 : c γ ⟨ρ, 0, p⟩ ≤ (q - p) / (δ * ρ / 2) := by
      rw [le_div_iff₀ (by have := mul_pos h0 hρ; linarith)]
      rw [hsound] at hq1
      linarith [hq1]
    linarith
  unfold nearShock3
  rw [if_pos hS0]
  unfold shockDensity
  dsimp only
  generalize shockSpeed ⟨ρ, -δ, p⟩ ⟨0, -δ / 2, q⟩ = S at hS0
  have h3 : 0 < δ / 2 + S := by linarith
  have h4 : (-δ - S) / (-δ / 2 - S) = (δ + S) / (δ / 2 + S) := by
    rw [← neg_div_neg_eq]
    congr 1 <;> ring
  rw [h4]
  have h5 : (δ + S) / (δ / 2 + S) < 2 := by
    rw [div_lt_iff₀ h3]
    linarith
  have h6 : 0 < δ / 2 * ρ := mul_pos (by linarith) hρ
  have := mul_lt_mul_of_pos_left h5 h6
  linarith

end

/-- **C139** is false: take a gas at rest on the left, the same gas moving with velocity `-δ` on the right, where `δ` is at
most the tolerance, but not so in the new unit of velocity, and less than the speed of sound.  In both units the solver
returns, and the fluxes of mass are different ones.  (It stops at once in one, and iterates in the other.) -/
theorem exact_depends {γ ρ p δ : ℝ} (hγ : 1 < γ) (hp : 0 < p) (hρ : 0 < ρ) (hδ : 0 < δ) (hs : δ ≤ 1 / 100000000)
    (hc : δ < Real.sqrt (γ * p / ρ)) (hk : 1 / 100000000 < k.velocity * δ) :
    let l : Tup d := ⟨ρ, 0, p⟩
    let r : Tup d := ⟨ρ, fun i => if i = 0 then -δ else 0, p⟩
    (∀ fuel, ∃ o, call fuel γ 0 l r = some o) ∧ (∃ fuel o, call fuel γ 0 (k.prim l) (k.prim r) = some o) ∧
    ∀ fuel fuel' o o', call fuel γ 0 l r = some o → call fuel' γ 0 (k.prim l) (k.prim r) = some o' →
      o'.1.mass ≠ (k.flux o.1).mass := by
  intro l r
  have el : P3.of l = ⟨ρ, 0, p⟩ := rfl
  have er : P3.of r = ⟨ρ, -δ, p⟩ := rfl
  have el' : P3.of (k.prim l) = ⟨k.density * ρ, 0, press k * p⟩ := by
    simp [P3.of, Units.prim, l, press]
  have er' : P3.of (k.prim r) = ⟨k.density * ρ, -(k.velocity * δ), press k * p⟩ := by
    simp [P3.of, Units.prim, r, press]
  have hm : ∀ (s : P3) (w : ℝ) (a b : Tup d), (primFlux γ (setPassive s w a b)).mass = s.u * s.rho := by
    intro s w a b
    simp [primFlux, Tup.scale, toCons, setPassive]
  refine ⟨fun fuel => ?_, ?_, fun fuel fuel' o o' h h' => ?_⟩
  · unfold call
    rw [el, er, axis_small hγ hp hρ hδ hs]
    exact ⟨_, rfl⟩
  · obtain ⟨n, hn⟩ := call_total hγ 0 (k.prim l) (k.prim r) ⟨mul_pos k.density_pos hρ, mul_pos (press_pos k) hp⟩
      ⟨mul_pos k.density_pos hρ, mul_pos (press_pos k) hp⟩
    obtain ⟨o, ho⟩ := hn n le_rfl
    exact ⟨n, o, ho⟩
  · unfold call at h h'
    rw [el, er, axis_small hγ hp hρ hδ hs] at h
    obtain rfl := Option.some.inj h
    rw [el', er'] at h'
    obtain ⟨a, ha, rfl⟩ := Option.map_eq_some_iff.1 h'
    have hc' : k.velocity * δ < c γ ⟨k.density * ρ, 0, press k * p⟩ := by
      have : c γ ⟨k.density * ρ, 0, press k * p⟩ = k.velocity * Real.sqrt (γ * p / ρ) := sound_ratio k γ p ρ
      rw [this]
      exact mul_lt_mul_of_pos_left hc k.velocity_pos
    have key := axis_large hγ (mul_pos (pp k) hp) (mul_pos k.density_pos hρ) hk hc' ha
    rw [hm]
    show a.1.u * a.1.rho ≠ k.density * k.velocity * (primFlux γ (setPassive _ _ _ _)).mass
    rw [hm]
    intro h0
    rw [h0] at key
    dsimp only at key
    linarith

/-- Air at one bar, in metres per second and in millimetres per second. -/
example : let k : Units := ⟨1, 1000, 1000, by norm_num, by norm_num, by norm_num⟩
    (0 : ℝ) < 1 / 1000000000 ∧ (1 : ℝ) / 1000000000 ≤ 1 / 100000000 ∧
      (1 : ℝ) / 1000000000 < Real.sqrt (7 / 5 * 100000 / (6 / 5)) ∧ 1 / 100000000 < k.velocity * (1 / 1000000000) := by
  refine ⟨by norm_num, by norm_num, ?_, by norm_num⟩
  rw [Real.lt_sqrt (by norm_num)]
  norm_num

/-- Two gases that part with twenty times the speed of sound. -/
example : let l : Tup 0 := ⟨1, fun _ => -10, 25 / 14 + 50⟩
    let r : Tup 0 := ⟨1, fun _ => 10, 25 / 14 + 50⟩
    let F : Frame 0 := fun _ _ => 1
    Admissible (7 / 5) l ∧ Admissible (7 / 5) r ∧
      2 / (7 / 5 - 1) * (sound (7 / 5) l + sound (7 / 5) r) ≤ velAlong (F 0) r - velAlong (F 0) l := by
  intro l r F
  have hl : pressure (7 / 5) l = 5 / 7 := by simp [pressure, vel, l]; norm_num
  have hr : pressure (7 / 5) r = 5 / 7 := by simp [pressure, vel, r]; norm_num
  refine ⟨⟨one_pos, by rw [hl]; norm_num⟩, ⟨one_pos, by rw [hr]; norm_num⟩, ?_⟩
  have e : Real.sqrt (7 / 5 * (5 / 7) / 1) = 1 := by norm_num
  unfold sound
  rw [hl, hr]
  show 2 / (7 / 5 - 1) * (Real.sqrt (7 / 5 * (5 / 7) / 1) + Real.sqrt (7 / 5 * (5 / 7) / 1)) ≤ _
  rw [e]
  simp [velAlong, vel, l, r, F]
  norm_num

end MiniCFD.Units
