import Verif.Model.DoubleMach
import Verif.Props.Exact
import Verif.Props.Euler
import Mathlib.Data.Fin.VecNotation
import Mathlib.Tactic.FieldSimp
import Mathlib.Tactic.LinearCombination

/-!
# C143: the data of the double Mach reflection are a moving shock
-/

namespace MiniCFD.DoubleMach

open MiniCFD.Euler MiniCFD.Spec.Euler MiniCFD.Exact MiniCFD.Spec.Exact

/-! ### Specification -/

/-- What the constants must satisfy: they belong to one gas, which is at rest in front of a shock of Mach number at
least one. -/
structure Sound (D : Data) : Prop where
  plus : D.plus = D.gamma + 1
  minus : D.minus = D.gamma - 1
  gamma : 1 < D.gamma
  rho : 0 < D.rho
  p : 0 < D.p
  a : 0 < D.a
  sound : D.a ^ 2 * D.rho = D.gamma * D.p
  mach : 1 ≤ D.m

/-- The direction in which the shock moves, thirty degrees below the `x`-axis. -/
noncomputable def ahead : Fin 3 → ℝ := ![Real.cos (-(Real.pi / 6)), Real.sin (-(Real.pi / 6)), 0]

/-- Distance travelled in that direction since leaving the corner at the gap. -/
noncomputable def along (gap : ℝ) (x : Fin 3 → ℝ) : ℝ := ∑ i, ahead i * (x i - ![gap, 0, 0] i)

/-- The gas behind the shock comes up at this speed. -/
noncomputable def gust (γ M a : ℝ) : ℝ := 2 * a * (M ^ 2 - 1) / ((γ + 1) * M)

/-! ### Lemmas -/

theorem ahead_eq : ahead = ![√3 / 2, -(1 / 2), 0] := by
  unfold ahead
  rw [Real.cos_neg, Real.sin_neg, Real.cos_pi_div_six, Real.sin_pi_div_six]

theorem root : (√3 : ℝ) * √3 = 3 := Real.mul_self_sqrt (by norm_num)

theorem root_pos : (0 : ℝ) < √3 := Real.sqrt_pos.2 (by norm_num)

theorem ahead_unit : ∑ i, ahead i * ahead i = 1 := by
  rw [ahead_eq, Fin.sum_univ_three]
  show √3 / 2 * (√3 / 2) + -(1 / 2) * -(1 / 2) + (0 : ℝ) * 0 = 1
  linear_combination (1 / 4) * root

variable {D : Data}

theorem Sound.m_pos (h : Sound D) : 0 < D.m := by linarith [h.mach]

theorem Sound.den (h : Sound D) : 0 < 2 + D.m ^ 2 * (D.gamma - 1) := by
  have := mul_nonneg (sq_nonneg D.m) (sub_pos.2 h.gamma).le
  linarith

theorem rhoAfter_eq (h : Sound D) :
    D.rhoAfter = D.rho * ((D.gamma + 1) * D.m ^ 2) / (2 + D.m ^ 2 * (D.gamma - 1)) := by
  have hd := h.den
  unfold Data.rhoAfter
  rw [h.plus, h.minus, show 1 + D.m * D.m * (D.gamma - 1) / 2 = (2 + D.m ^ 2 * (D.gamma - 1)) / 2 by ring]
  field_simp

theorem pAfter_eq (h : Sound D) : D.pAfter = D.p * (2 * D.gamma * D.m ^ 2 - (D.gamma - 1)) / (D.gamma + 1) := by
  have : D.gamma + 1 ≠ 0 := by linarith [h.gamma]
  unfold Data.pAfter
  rw [h.plus, h.minus]
  field_simp

theorem rhoAfter_pos (h : Sound D) : 0 < D.rhoAfter := by
  rw [rhoAfter_eq h]
  have := h.m_pos
  have := h.gamma
  exact div_pos (mul_pos h.rho (mul_pos (by linarith) (by positivity))) h.den

theorem pAfter_ge (h : Sound D) : D.p ≤ D.pAfter := by
  have hg := h.gamma
  rw [pAfter_eq h, le_div_iff₀ (by linarith)]
  refine mul_le_mul_of_nonneg_left ?_ h.p.le
  have : 1 ≤ D.m ^ 2 := one_le_pow₀ h.mach
  nlinarith

theorem uAfter_eq (h : Sound D) : D.uAfter = gust D.gamma D.m D.a := by
  have hd := h.den
  have hr := h.rho
  have hm := h.m_pos
  have hg : 0 < D.gamma + 1 := by linarith [h.gamma]
  unfold Data.uAfter gust Data.speed
  rw [mul_sub_div_aux (rhoAfter_pos h).ne', rhoAfter_eq h]
  field_simp
  ring
where
  mul_sub_div_aux {s r q : ℝ} (h : q ≠ 0) : s * (q - r) / q = s * (1 - r / q) := by field_simp

theorem admissible_after (h : Sound D) : AdmissiblePrim D.primAfter :=
  ⟨rhoAfter_pos h, lt_of_lt_of_le h.p (pAfter_ge h)⟩

theorem admissible_before (h : Sound D) : AdmissiblePrim D.primBefore := ⟨h.rho, h.p⟩

theorem toCons_vel (γ : ℝ) {s : Tup 2} (h : s.mass ≠ 0) (i : Fin 3) : vel (toCons γ s) i = s.mom i := by
  unfold vel toCons
  field_simp

theorem toCons_pressure {γ : ℝ} (hγ : 1 < γ) {s : Tup 2} (h : s.mass ≠ 0) : pressure γ (toCons γ s) = s.energy := by
  have h1 : γ - 1 ≠ 0 := by linarith
  have e : ∑ i, (s.mom i * s.mass) ^ 2 = s.mass ^ 2 * ∑ i, s.mom i * s.mom i := by
    rw [Finset.mul_sum]
    exact Finset.sum_congr rfl fun i _ => by ring
  show (γ - 1) * (s.energy * (1 / (γ - 1)) + s.mass * ((∑ i, s.mom i * s.mom i) * (1 / 2)) -
    (∑ i, (s.mom i * s.mass) ^ 2) / (2 * s.mass)) = s.energy
  rw [e]
  field_simp
  ring

theorem before_pressure (h : Sound D) : pressure D.gamma D.before = D.p := toCons_pressure h.gamma h.rho.ne'

theorem after_pressure (h : Sound D) : pressure D.gamma D.after = D.pAfter :=
  toCons_pressure h.gamma (rhoAfter_pos h).ne'

theorem three_terms (f : Fin (2 + 1) → ℝ) : ∑ i, f i = f 0 + f 1 + f 2 := Fin.sum_univ_three f

theorem before_along (h : Sound D) : velAlong ahead D.before = 0 := by
  unfold velAlong
  rw [three_terms]
  unfold Data.before
  rw [toCons_vel _ h.rho.ne', toCons_vel _ h.rho.ne', toCons_vel _ h.rho.ne']
  show (0 : ℝ) * _ + 0 * _ + 0 * _ = 0
  ring

theorem after_along (h : Sound D) : velAlong ahead D.after = D.uAfter := by
  have hr := (rhoAfter_pos h).ne'
  unfold velAlong
  rw [three_terms]
  unfold Data.after
  rw [toCons_vel _ hr, toCons_vel _ hr, toCons_vel _ hr, ahead_eq]
  show D.uAfter * (√3 * (1 / 2)) * (√3 / 2) + D.uAfter * -(1 / 2) * -(1 / 2) + 0 * 0 = D.uAfter
  linear_combination D.uAfter / 4 * root

theorem after_mom (i : Fin 3) : D.after.mom i = D.rhoAfter * D.uAfter * ahead i := by
  rw [ahead_eq]
  fin_cases i
  · show D.uAfter * (√3 * (1 / 2)) * D.rhoAfter = D.rhoAfter * D.uAfter * (√3 / 2)
    ring
  · show D.uAfter * -(1 / 2) * D.rhoAfter = D.rhoAfter * D.uAfter * -(1 / 2)
    ring
  · show (0 : ℝ) * D.rhoAfter = D.rhoAfter * D.uAfter * 0
    ring

theorem before_mom (i : Fin 3) : D.before.mom i = 0 := by
  fin_cases i <;> exact zero_mul D.rho

theorem before_energy (h : Sound D) : D.before.energy = D.p / (D.gamma - 1) := by
  show D.p * (1 / (D.gamma - 1)) + D.rho * ((∑ i, ![(0 : ℝ), 0, 0] i * ![(0 : ℝ), 0, 0] i) * (1 / 2)) = _
  rw [Fin.sum_univ_three]
  show D.p * (1 / (D.gamma - 1)) + D.rho * (((0 : ℝ) * 0 + 0 * 0 + 0 * 0) * (1 / 2)) = _
  ring

theorem after_energy : D.after.energy = D.pAfter / (D.gamma - 1) + D.rhoAfter * D.uAfter ^ 2 / 2 := by
  have e : ∀ v : Fin 3 → ℝ, v = ![D.uAfter * cos30, D.uAfter * -sin30, 0] → ∑ i, v i * v i = D.uAfter ^ 2 := by
    rintro v rfl
    rw [Fin.sum_univ_three]
    show D.uAfter * (√3 * (1 / 2)) * (D.uAfter * (√3 * (1 / 2))) + D.uAfter * -(1 / 2) * (D.uAfter * -(1 / 2)) +
      0 * 0 = D.uAfter ^ 2
    linear_combination D.uAfter ^ 2 / 4 * root
  show D.pAfter * (1 / (D.gamma - 1)) + D.rhoAfter * ((∑ i, D.primAfter.mom i * D.primAfter.mom i) * (1 / 2)) = _
  rw [show ∑ i, D.primAfter.mom i * D.primAfter.mom i = D.uAfter ^ 2 from e _ rfl]
  ring

/-- The three jumps, seen along the way. -/
theorem jump_along (h : Sound D) :
    D.rhoAfter * D.uAfter = D.speed * (D.rhoAfter - D.rho) ∧
    D.rhoAfter * D.uAfter ^ 2 + D.pAfter - D.p = D.speed * (D.rhoAfter * D.uAfter) ∧
    (D.pAfter / (D.gamma - 1) + D.rhoAfter * D.uAfter ^ 2 / 2 + D.pAfter) * D.uAfter =
      D.speed * (D.pAfter / (D.gamma - 1) + D.rhoAfter * D.uAfter ^ 2 / 2 - D.p / (D.gamma - 1)) := by
  have hr := rhoAfter_pos h
  have hd := h.den
  have hm := h.m_pos
  have hg : 0 < D.gamma + 1 := by linarith [h.gamma]
  have hg1 : D.gamma - 1 ≠ 0 := by linarith [h.gamma]
  have hg0 : 0 < D.gamma := by linarith [h.gamma]
  have h1 : D.rhoAfter * D.uAfter = D.speed * (D.rhoAfter - D.rho) := by
    unfold Data.uAfter
    field_simp
  have hp : D.pAfter * (D.gamma + 1) = D.p * (2 * D.gamma * D.m ^ 2 - (D.gamma - 1)) := by
    rw [pAfter_eq h]
    field_simp
  have h2 : D.pAfter - D.p = D.speed * D.rho * D.uAfter := by
    have e : D.speed * D.rho * D.uAfter = 2 * (D.a ^ 2 * D.rho) * (D.m ^ 2 - 1) / (D.gamma + 1) := by
      rw [uAfter_eq h]
      unfold gust Data.speed
      field_simp
    rw [e, h.sound, eq_div_iff hg.ne']
    linear_combination hp
  have h3 : D.gamma * D.pAfter = D.speed ^ 2 * D.rho + (D.gamma - 1) / 2 * (D.pAfter - D.p) := by
    unfold Data.speed
    linear_combination hp / 2 - D.m ^ 2 * h.sound
  refine ⟨h1, ?_, ?_⟩
  · linear_combination D.uAfter * h1 + h2
  · have e1 : D.rhoAfter * D.uAfter ^ 2 * (D.speed - D.uAfter) = (D.pAfter - D.p) * D.uAfter := by
      linear_combination (-D.uAfter ^ 2) * h1 - D.uAfter * h2
    have e2 : D.speed * (D.pAfter - D.p) = D.speed ^ 2 * D.rho * D.uAfter := by
      linear_combination D.speed * h2
    field_simp
    linear_combination (-(D.gamma - 1)) * e1 - 2 * e2 + 2 * D.uAfter * h3

/-! ### C143 -/

/-- **C143.** At the front mass, momentum and energy are conserved: the flux jumps by the speed times the jump of the
state. -/
theorem jump (h : Sound D) : Tup.sub (flux D.gamma ahead D.after) (flux D.gamma ahead D.before) =
    Tup.scale D.speed (Tup.sub D.after D.before) := by
  obtain ⟨h1, h2, h3⟩ := jump_along h
  refine Tup.ext ?_ ?_ ?_
  · show D.after.mass * velAlong ahead D.after - D.before.mass * velAlong ahead D.before =
      D.speed * (D.after.mass - D.before.mass)
    rw [after_along h, before_along h, mul_zero, sub_zero]
    exact h1
  · funext i
    show D.after.mom i * velAlong ahead D.after + pressure D.gamma D.after * ahead i -
      (D.before.mom i * velAlong ahead D.before + pressure D.gamma D.before * ahead i) =
      D.speed * (D.after.mom i - D.before.mom i)
    rw [after_along h, before_along h, after_pressure h, before_pressure h, after_mom, before_mom]
    linear_combination ahead i * h2
  · show (D.after.energy + pressure D.gamma D.after) * velAlong ahead D.after -
      (D.before.energy + pressure D.gamma D.before) * velAlong ahead D.before =
      D.speed * (D.after.energy - D.before.energy)
    rw [after_along h, before_along h, mul_zero, sub_zero, after_pressure h, before_energy h, after_energy]
    exact h3

/-- **C143.** It is a shock which compresses: faster than sound in front of it, slower than sound behind it. -/
theorem lax (h : Sound D) (hm : 1 < D.m) :
    velAlong ahead D.before + Spec.Euler.sound D.gamma D.before < D.speed ∧ velAlong ahead D.after < D.speed ∧
      D.speed < velAlong ahead D.after + Spec.Euler.sound D.gamma D.after := by
  have hg := h.gamma
  have ha := h.a
  have hr := h.rho
  have hp := h.p
  have hR := rhoAfter_pos h
  obtain ⟨h1, -, -⟩ := jump_along h
  have hs : 0 < D.speed := mul_pos h.m_pos ha
  have hM : 1 < D.m ^ 2 := one_lt_pow₀ hm two_ne_zero
  refine ⟨?_, ?_, ?_⟩
  · rw [before_along h, zero_add]
    unfold Spec.Euler.sound
    rw [before_pressure h, show D.before.mass = D.rho from rfl, ← h.sound, mul_div_assoc, div_self hr.ne', mul_one,
      Real.sqrt_sq ha.le]
    unfold Data.speed
    nlinarith
  · rw [after_along h]
    have : D.rhoAfter * (D.speed - D.uAfter) = D.speed * D.rho := by linear_combination -h1
    have h2 := (pos_iff_pos_of_mul_pos (this ▸ mul_pos hs hr)).1 hR
    linarith
  · rw [after_along h, ← sub_lt_iff_lt_add']
    unfold Spec.Euler.sound
    rw [after_pressure h, show D.after.mass = D.rhoAfter from rfl]
    refine Real.lt_sqrt_of_sq_lt ?_
    rw [lt_div_iff₀ hR]
    have e : D.rhoAfter * (D.speed - D.uAfter) = D.speed * D.rho := by linear_combination -h1
    have e1 : (D.speed - D.uAfter) ^ 2 * D.rhoAfter = D.gamma * D.p * (2 + D.m ^ 2 * (D.gamma - 1)) / (D.gamma + 1) := by
      have : D.speed - D.uAfter = D.speed * D.rho / D.rhoAfter := by
        rw [eq_div_iff hR.ne']
        linarith
      rw [this, ← h.sound, rhoAfter_eq h]
      have hd := h.den
      have hm0 := h.m_pos
      have hg1 : 0 < D.gamma + 1 := by linarith
      unfold Data.speed
      field_simp
    rw [e1, pAfter_eq h, mul_div_assoc', ← mul_assoc]
    refine div_lt_div_of_pos_right ?_ (by linarith)
    refine mul_lt_mul_of_pos_left ?_ (mul_pos (by linarith) hp)
    nlinarith

/-- **C143.** The prescribed flow is the gas behind the shock up to a front which moves at `u_nu` along the normal, and
the gas at rest beyond it. -/
theorem moving_front (D : Data) (x : Fin 3 → ℝ) (t : ℝ) :
    D.moving x t = if along D.gap x < D.speed * t then D.after else D.before := by
  unfold Data.moving
  have e : (x 0 - (D.gap + D.slip * t)) * tan60 < x 1 ↔ along D.gap x < D.speed * t := by
    have hr := root_pos
    have e1 : along D.gap x = √3 / 2 * (x 0 - D.gap) - x 1 / 2 := by
      unfold along
      rw [ahead_eq, Fin.sum_univ_three]
      show √3 / 2 * (x 0 - D.gap) + -(1 / 2) * (x 1 - 0) + 0 * (x 2 - 0) = _
      ring
    have e2 : D.slip * tan60 = 2 * D.speed := by
      unfold Data.slip cos30 tan60
      field_simp
    have e3 : (x 0 - (D.gap + D.slip * t)) * tan60 = √3 * (x 0 - D.gap) - 2 * (D.speed * t) := by
      unfold tan60 at *
      linear_combination (-t) * e2
    rw [e1, e3]
    constructor <;> intro h' <;> linarith
  by_cases h : along D.gap x < D.speed * t
  · rw [if_pos h, if_pos (e.2 h)]
  · rw [if_neg h, if_neg fun h' => h (e.1 h')]

/-- **C143.** What is prescribed at boundaries begins as the initial condition. -/
theorem moving_start (D : Data) (x : Fin 3 → ℝ) : D.moving x 0 = D.initial x := by
  unfold Data.moving Data.initial
  rw [mul_zero, add_zero]

/-- **C143.** It travels without change of shape. -/
theorem moving_travels (D : Data) (x : Fin 3 → ℝ) (t s : ℝ) :
    D.moving (fun i => x i + D.speed * s * ahead i) (t + s) = D.moving x t := by
  rw [moving_front, moving_front]
  have e : along D.gap (fun i => x i + D.speed * s * ahead i) = along D.gap x + D.speed * s := by
    have h1 : along D.gap (fun i => x i + D.speed * s * ahead i) =
        along D.gap x + D.speed * s * ∑ i, ahead i * ahead i := by
      unfold along
      rw [Finset.mul_sum, ← Finset.sum_add_distrib]
      exact Finset.sum_congr rfl fun i _ => by ring
    rw [h1, ahead_unit, mul_one]
  rw [e]
  have : along D.gap x + D.speed * s < D.speed * (t + s) ↔ along D.gap x < D.speed * t := by
    rw [mul_add, add_lt_add_iff_right]
  by_cases h : along D.gap x < D.speed * t
  · rw [if_pos h, if_pos (this.2 h)]
  · rw [if_neg h, if_neg fun h' => h (this.1 h')]

/-! ### With the exact solver -/

/-- A shock of pressure ratio at least one into `r`, with `l` behind it: the solver finds it without iteration. -/
theorem axis_shock {γ : ℝ} (hγ : 1 < γ) {l r : P3} (hl : Good l) (hr : Good r) (hlr : r.p ≤ l.p) (hu : 0 < l.u)
    (h : speedChange γ r l.p = l.u - r.u) (fuel : Nat) : axis fuel γ l r = some (l, some l.u) := by
  have hd : speedChange γ l l.p = 0 := by rw [speedChange_eq hl, if_pos le_rfl, phi_at]
  have hf : pressureFn γ l r l.p = 0 := by unfold pressureFn; rw [hd, h]; ring
  have h0 : pressureFn γ l r 0 < 0 := by
    have := pressureFn_strictMono hγ hl hr (Set.mem_Ici.2 le_rfl) (Set.mem_Ici.2 hl.2.le) hl.2
    rwa [hf] at this
  have hroot : findRoot fuel (pressureFn γ l r) (pressureFnPrime γ l r) l.p (1 / 100000000) = some l.p := by
    unfold findRoot
    have h1 : halve (pressureFn γ l r) fuel l.p = some l.p := by
      cases fuel <;> (unfold halve; rw [if_neg (by rw [hf]; exact lt_irrefl _)])
    rw [h1]
    show newton _ _ _ _ _ = _
    cases fuel <;> (unfold newton; rw [if_neg (by rw [hf]; norm_num)])
  unfold axis
  simp only [if_pos (show l.rho > 0 from hl.1), if_pos (show r.rho > 0 from hr.1), if_pos h0, starPressure, hroot,
    Option.map_some]
  have hs : starSpeed γ l r l.p = l.u := by unfold starSpeed; rw [hd, h]; ring
  have hss : shockSpeed l ⟨0, l.u, l.p⟩ = l.u + l.u := by unfold shockSpeed; simp
  have ho : (ordinary γ l r l.p).2 = l.u := hs
  have ho1 : (ordinary γ l r l.p).1 = l := by
    rw [ordinary_eq, hs]
    dsimp only
    rw [if_pos hu]
    unfold code1 nearShock1
    simp only [ge_iff_le, le_refl, if_true]
    rw [if_neg (by rw [hss]; linarith)]
  rw [ho, ho1]

theorem speedChange_shock (h : Sound D) : speedChange D.gamma ⟨D.rho, 0, D.p⟩ D.pAfter = D.uAfter := by
  have hm := h.m_pos
  have ha := h.a
  have hr := h.rho
  have hg : 0 < D.gamma + 1 := by linarith [h.gamma]
  unfold speedChange
  dsimp only
  rw [if_pos (pAfter_ge h)]
  have e : D.rho * bigP D.gamma ⟨D.rho, 0, D.p⟩ D.pAfter = (D.rho * D.a * D.m) ^ 2 := by
    unfold bigP
    rw [pAfter_eq h]
    dsimp only
    field_simp
    linear_combination (-2 * D.m ^ 2) * h.sound
  rw [e, Real.sqrt_sq (by positivity), div_eq_iff (by positivity)]
  obtain ⟨h1, h2, -⟩ := jump_along h
  have : D.pAfter - D.p = D.speed * D.rho * D.uAfter := by linear_combination h2 - D.uAfter * h1
  rw [this]
  unfold Data.speed
  ring

theorem uAfter_pos (h : Sound D) (hm : 1 < D.m) : 0 < D.uAfter := by
  rw [uAfter_eq h]
  have h1 : 1 < D.m ^ 2 := one_lt_pow₀ hm two_ne_zero
  exact div_pos (mul_pos (mul_pos two_pos h.a) (by linarith)) (mul_pos (by linarith [h.gamma]) h.m_pos)

theorem after_admissible (h : Sound D) : Admissible D.gamma D.after :=
  ⟨rhoAfter_pos h, by rw [after_pressure h]; exact (admissible_after h).2⟩

theorem before_admissible (h : Sound D) : Admissible D.gamma D.before :=
  ⟨h.rho, by rw [before_pressure h]; exact h.p⟩

theorem seen_eq {γ : ℝ} (hγ : 1 < γ) {F : Frame 2} {s : Tup 2} (h : Admissible γ s) :
    P3.of (globalToNormal F (toPrim γ s)) = ⟨s.mass, velAlong (F 0) s, pressure γ s⟩ := by
  rw [toPrim_physical hγ (physical_of_admissible h)]
  rfl

/-- **C143.** On faces along the front the exact solver lets through exactly the flux of the gas behind the shock, in
whatever state it was, and without any iteration. -/
theorem exact_agrees (h : Sound D) (hm : 1 < D.m) {F : Frame 2} (hF : Orthonormal F) (hn : F 0 = ahead) (fuel : Nat)
    (starU : ℝ) : (rotatedCall fuel D.gamma F starU D.after D.before).map (·.1) =
      some (flux D.gamma ahead D.after) := by
  have hl := seen_eq h.gamma (F := F) (after_admissible h)
  have hr := seen_eq h.gamma (F := F) (before_admissible h)
  rw [hn, after_along h, after_pressure h] at hl
  rw [hn, before_along h, before_pressure h] at hr
  have hx : axis fuel D.gamma ⟨D.after.mass, D.uAfter, D.pAfter⟩ ⟨D.before.mass, 0, D.p⟩ =
      some (⟨D.after.mass, D.uAfter, D.pAfter⟩, some D.uAfter) :=
    axis_shock (l := ⟨D.after.mass, D.uAfter, D.pAfter⟩) (r := ⟨D.before.mass, 0, D.p⟩) h.gamma
      (admissible_after h) (admissible_before h) (pAfter_ge h) (uAfter_pos h hm)
      ((speedChange_shock h).trans (sub_zero _).symm) fuel
  have hfl := fluxOfPrim_physical h.gamma hF (physical_of_admissible (after_admissible h))
  rw [hn] at hfl
  rw [← hfl]
  unfold rotatedCall call
  rw [hl, hr, hx, ← hl]
  simp only [Option.map_some, Option.some.injEq, Option.getD_some]
  unfold fluxOfPrim
  congr 2
  unfold setPassive
  refine Tup.ext rfl ?_ rfl
  funext i
  by_cases hi : i = 0
  · subst hi; rfl
  · simp only [if_neg hi, if_pos (uAfter_pos h hm)]

/-! ### The numbers of the demo -/

theorem demo_sound : Sound demo := by
  constructor <;> norm_num [demo]

/-- They are as noted beside them in the code. -/
theorem demo_values : demo.rhoAfter = 8 ∧ demo.pAfter = 233 / 2 ∧ demo.uAfter = 33 / 4 := by
  have h1 : demo.rhoAfter = 8 := by norm_num [demo, Data.rhoAfter]
  refine ⟨h1, by norm_num [demo, Data.pAfter], ?_⟩
  unfold Data.uAfter
  rw [h1]
  norm_num [demo, Data.speed]

/-- **C143.** The gas behind the shock enters from the left faster than sound, but from the top slower than sound, though
both are set up by `SetSupersonicInlet`. -/
theorem demo_inlets : Spec.Euler.sound demo.gamma demo.after < velAlong ![1, 0, 0] demo.after ∧
    velAlong ![0, -1, 0] demo.after < Spec.Euler.sound demo.gamma demo.after ∧
    0 < velAlong ![0, -1, 0] demo.after := by
  obtain ⟨h1, h2, h3⟩ := demo_values
  have hr : demo.primAfter.mass ≠ 0 := (rhoAfter_pos demo_sound).ne'
  have hs : Spec.Euler.sound demo.gamma demo.after = √(1631 / 80) := by
    unfold Spec.Euler.sound
    rw [after_pressure demo_sound, show demo.after.mass = demo.rhoAfter from rfl, h1, h2]
    norm_num [demo]
  have e : ∀ n : Fin 3 → ℝ, velAlong n demo.after = 33 / 4 * (√3 * (1 / 2)) * n 0 + 33 / 4 * -(1 / 2) * n 1 + 0 * n 2 := by
    intro n
    unfold velAlong
    rw [three_terms]
    unfold Data.after
    rw [toCons_vel _ hr, toCons_vel _ hr, toCons_vel _ hr, ← h3]
    rfl
  rw [hs, e, e]
  have hq := root
  have hq0 := root_pos
  refine ⟨?_, ?_, ?_⟩
  · show √(1631 / 80) < 33 / 4 * (√3 * (1 / 2)) * 1 + 33 / 4 * -(1 / 2) * 0 + 0 * 0
    rw [Real.sqrt_lt' (by nlinarith)]
    nlinarith
  · show 33 / 4 * (√3 * (1 / 2)) * 0 + 33 / 4 * -(1 / 2) * -1 + (0 : ℝ) * 0 < √(1631 / 80)
    refine Real.lt_sqrt_of_sq_lt ?_
    norm_num
  · show (0 : ℝ) < 33 / 4 * (√3 * (1 / 2)) * 0 + 33 / 4 * -(1 / 2) * -1 + 0 * 0
    norm_num

/-- A face along the front. -/
noncomputable def facing : Frame 2 := !![√3 / 2, -(1 / 2), 0; 1 / 2, √3 / 2, 0; 0, 0, 1]

theorem facing_ortho : Orthonormal facing := by
  have hq : √3 ^ 2 = (3 : ℝ) := by rw [sq, root]
  unfold Orthonormal facing
  ext i j
  fin_cases i <;> fin_cases j <;>
    simp [Matrix.mul_apply, Fin.sum_univ_succ, Matrix.transpose_apply, Matrix.one_apply] <;> ring_nf <;>
    norm_num [hq]

/-- What the exact solver makes of the shock of the demo. -/
example (fuel : Nat) (starU : ℝ) : (rotatedCall fuel demo.gamma facing starU demo.after demo.before).map (·.1) =
    some (flux demo.gamma ahead demo.after) :=
  exact_agrees demo_sound (by norm_num [demo]) facing_ortho (by rw [ahead_eq]; rfl) fuel starU

/-- Air behind a shock of Mach number two in other units. -/
example : Sound ⟨12 / 5, 7 / 5, 2 / 5, 7 / 5, 4, 2, 2, 0⟩ := by
  constructor <;> norm_num

end MiniCFD.DoubleMach
