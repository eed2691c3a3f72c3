import Verif.Spec.PyEuler
import Mathlib.Tactic.Linarith
import Mathlib.Tactic.FieldSimp
import Mathlib.Tactic.LinearCombination
import Mathlib.Tactic.Positivity
import Mathlib.Tactic.FinCases
import Mathlib.LinearAlgebra.Matrix.Notation

set_option linter.unusedSimpArgs false

namespace MiniCFD.PyEuler
open MiniCFD.Spec.PyEuler Matrix

theorem toCons_eq (γ : ℝ) (w : Prim) : toCons γ w = state γ w := by
  simp only [toCons, state, energy]
  congr 3
  ring

theorem toPrim_state {γ : ℝ} (hγ : 1 < γ) {w : Prim} (h : 0 < w.rho) (hp : 0 ≤ w.p) :
    toPrim γ (state γ w) = some w := by
  have h0 : w.rho ≠ 0 := h.ne'
  have hg : γ - 1 ≠ 0 := by linarith
  have e : w.rho * w.u / w.rho = w.u := by field_simp
  have e2 : (energy γ w - w.u * (w.rho * w.u) / 2) * (γ - 1) = w.p := by
    simp only [energy]; field_simp; ring
  simp only [toPrim, state, Matrix.cons_val_zero, Matrix.cons_val_one, Matrix.cons_val, h0, if_false,
    e, e2, h.le, hp, and_self, if_true]

theorem toPrim_some {γ : ℝ} (hγ : 1 < γ) {U : Vec} {w : Prim} (h : toPrim γ U = some w) :
    state γ w = U ∧ 0 ≤ w.rho ∧ 0 ≤ w.p := by
  have hg : γ - 1 ≠ 0 := by linarith
  simp only [toPrim] at h
  split at h
  next h0 =>
    split at h
    next h1 =>
      split at h
      next h2 =>
        cases h
        refine ⟨?_, h2.1, h2.2⟩
        ext i
        fin_cases i
        · simp [state]
        · simp [state, h1.1]
        · simp [state, energy, h0, h1.2]
      next => cases h
    next => cases h
  next h0 =>
    split at h
    next h2 =>
      cases h
      refine ⟨?_, h2.1, h2.2⟩
      ext i
      fin_cases i
      · simp [state]
      · simp only [state, Fin.mk_one, Fin.isValue, Matrix.cons_val_one, Matrix.cons_val_zero]
        field_simp
      · simp only [state, energy, Fin.reduceFinMk, Fin.isValue, Matrix.cons_val]
        field_simp
        ring
    next => cases h

theorem flux_state {γ : ℝ} (hγ : 1 < γ) {w : Prim} (h : 0 < w.rho) (hp : 0 ≤ w.p) :
    flux γ (state γ w) = some (physFlux γ w) := by
  rw [flux, toPrim_state hγ h hp, Option.map_some]
  refine congrArg some ?_
  ext i
  fin_cases i <;> simp only [state, physFlux, Fin.zero_eta, Fin.mk_one, Fin.reduceFinMk, Fin.isValue,
    Matrix.cons_val] <;> ring

theorem sound_pos {γ : ℝ} (hγ : 1 < γ) {w : Prim} (h : Good w) : 0 < sound γ w := by
  have := h.1; have := h.2
  exact Real.sqrt_pos.2 (by positivity)

theorem sound_sq {γ : ℝ} (hγ : 1 < γ) {w : Prim} (h : Good w) :
    sound γ w ^ 2 = γ * w.p / w.rho := by
  have := h.1; have := h.2
  exact Real.sq_sqrt (by positivity)

theorem eigvals_state {γ : ℝ} (hγ : 1 < γ) {w : Prim} (h : Good w) :
    eigvals γ (state γ w) = some ![w.u - sound γ w, w.u, w.u + sound γ w] := by
  rw [eigvals, toPrim_state hγ h.1 h.2.le, Option.bind_some, if_neg h.1.ne']
  rfl

/-- The matrices of eigenvectors in terms of velocity and speed of sound. -/
noncomputable def rightMat (γ u a : ℝ) : Mat :=
  !![1, 1, 1; u - a, u, u + a;
    a ^ 2 / (γ - 1) + u ^ 2 / 2 - u * a, u ^ 2 / 2, a ^ 2 / (γ - 1) + u ^ 2 / 2 + u * a]

noncomputable def leftMat (γ u a : ℝ) : Mat :=
  !![((γ - 1) / a ^ 2 * (u ^ 2 / 2) + u / a) / 2, -((γ - 1) / a ^ 2 * u + 1 / a) / 2, (γ - 1) / a ^ 2 / 2;
    1 - (γ - 1) / a ^ 2 * (u ^ 2 / 2), (γ - 1) / a ^ 2 * u, -((γ - 1) / a ^ 2);
    ((γ - 1) / a ^ 2 * (u ^ 2 / 2) - u / a) / 2, -((γ - 1) / a ^ 2 * u - 1 / a) / 2, (γ - 1) / a ^ 2 / 2]

noncomputable def jacMat (γ u a : ℝ) : Mat :=
  !![0, 1, 0;
    u ^ 2 / 2 * (γ - 3), -u * (γ - 3), γ - 1;
    u * (u ^ 2 * (γ - 1) - (a ^ 2 / (γ - 1) + γ * u ^ 2 / 2)),
      (a ^ 2 / (γ - 1) + γ * u ^ 2 / 2) - 3 * (u ^ 2 / 2) * (γ - 1), u * γ]

theorem eigmats_state {γ : ℝ} (hγ : 1 < γ) {w : Prim} (h : Good w) :
    eigmats γ (state γ w) = some (leftMat γ w.u (sound γ w), rightMat γ w.u (sound γ w)) := by
  have h1 := h.1; have h2 := h.2
  have haa : γ * w.p / w.rho ≠ 0 := by positivity
  have hk : 1 / 2 * w.u * w.u = w.u ^ 2 / 2 := by ring
  rw [eigmats, toPrim_state hγ h.1 h.2.le, Option.bind_some]
  dsimp only
  rw [if_neg (by simp only [not_or]; exact ⟨h1.ne', haa⟩), hk]
  simp only [leftMat, rightMat, sound_sq hγ h]
  rfl

theorem jacobian_state {γ : ℝ} (hγ : 1 < γ) {w : Prim} (h : Good w) :
    jacobian γ (state γ w) = some (jacMat γ w.u (sound γ w)) := by
  have h1 := h.1; have h2 := h.2
  have hg : γ - 1 ≠ 0 := by linarith
  have e : state γ w 1 / state γ w 0 = w.u := by simp only [state, Matrix.cons_val]; field_simp
  have e2 : state γ w 2 / state γ w 0 * γ = sound γ w ^ 2 / (γ - 1) + γ * w.u ^ 2 / 2 := by
    rw [sound_sq hγ h]; simp only [state, energy, Matrix.cons_val]; field_simp
  rw [jacobian, if_neg (by simpa [state] using h1.ne')]
  dsimp only
  rw [e, e2]
  rfl

theorem left_mul_right {γ u a : ℝ} (hγ : 1 < γ) (ha : a ≠ 0) : leftMat γ u a * rightMat γ u a = 1 := by
  have hg : γ - 1 ≠ 0 := by linarith
  ext i j
  fin_cases i <;> fin_cases j <;>
    (simp [leftMat, rightMat, Matrix.mul_apply, Fin.sum_univ_three, Matrix.one_apply,
      -mul_eq_mul_left_iff, -mul_eq_mul_right_iff]
     try field_simp
     try ring)

theorem jac_mul_right {γ u a : ℝ} (hγ : 1 < γ) :
    jacMat γ u a * rightMat γ u a = rightMat γ u a * Matrix.diagonal ![u - a, u, u + a] := by
  have hg : γ - 1 ≠ 0 := by linarith
  ext i j
  fin_cases i <;> fin_cases j <;>
    (simp [jacMat, rightMat, Matrix.mul_apply, Fin.sum_univ_three, Matrix.diagonal,
      -mul_eq_mul_left_iff, -mul_eq_mul_right_iff]
     try field_simp
     try ring)

/-! ### Roe averages -/

section
variable {γ : ℝ} {l r : Prim}

theorem roe_identities (hγ : 1 < γ) (hl : Good l) (hr : Good r) :
    let d := roeData γ l r
    d.u * (r.rho - l.rho) + d.rho * (r.u - l.u) = r.rho * r.u - l.rho * l.u ∧
    d.u ^ 2 / 2 * (r.rho - l.rho) + d.u * d.rho * (r.u - l.u) =
      r.rho * r.u ^ 2 / 2 - l.rho * l.u ^ 2 / 2 ∧
    γ / (γ - 1) * d.u * (r.p - l.p) + (d.h0 + d.u ^ 2) * d.rho * (r.u - l.u) +
      d.u ^ 3 / 2 * (r.rho - l.rho) =
      (γ / (γ - 1) * r.p * r.u + r.rho * r.u ^ 3 / 2) - (γ / (γ - 1) * l.p * l.u + l.rho * l.u ^ 3 / 2) := by
  obtain ⟨h1, -⟩ := hl
  obtain ⟨h2, -⟩ := hr
  have hg : γ - 1 ≠ 0 := by linarith
  have hsl := Real.sqrt_pos.2 h1
  have hsr := Real.sqrt_pos.2 h2
  have el := Real.sq_sqrt h1.le
  have er := Real.sq_sqrt h2.le
  obtain ⟨rl, ul, pl⟩ := l
  obtain ⟨rr, ur, pr⟩ := r
  dsimp only at *
  simp only [roeData, enthalpy]
  generalize √rl = sl at *
  generalize √rr = sr at *
  subst el er
  have hS : sl + sr ≠ 0 := by positivity
  refine ⟨?_, ?_, ?_⟩ <;> field_simp <;> ring

theorem roe_aa (hγ : 1 < γ) (hl : Good l) (hr : Good r) :
    0 < (roeData γ l r).aa ∧ (roeData γ l r).h0 - (roeData γ l r).ke = (roeData γ l r).aa / (γ - 1) := by
  have hg : 0 < γ - 1 := by linarith
  have hg0 : 0 < γ := by linarith
  refine ⟨?_, by simp only [roeData]; field_simp⟩
  obtain ⟨h1, h3⟩ := hl
  obtain ⟨h2, h4⟩ := hr
  have hsl := Real.sqrt_pos.2 h1
  have hsr := Real.sqrt_pos.2 h2
  simp only [roeData, enthalpy]
  generalize √l.rho = sl at *
  generalize √r.rho = sr at *
  have key : (sl * (γ * l.p / l.rho / (γ - 1) + l.u * l.u / 2) +
        sr * (γ * r.p / r.rho / (γ - 1) + r.u * r.u / 2)) / (sl + sr) -
      (sl * l.u + sr * r.u) / (sl + sr) * ((sl * l.u + sr * r.u) / (sl + sr)) / 2 =
      (sl * (γ * l.p / l.rho / (γ - 1)) + sr * (γ * r.p / r.rho / (γ - 1))) / (sl + sr) +
        sl * sr * (l.u - r.u) ^ 2 / (2 * (sl + sr) ^ 2) := by
    have hS : sl + sr ≠ 0 := by positivity
    generalize γ * l.p / l.rho / (γ - 1) = A
    generalize γ * r.p / r.rho / (γ - 1) = B
    field_simp
    ring
  rw [key]
  positivity

/-- The waves add up to the jump of the states, and weighted by their speeds to the jump of the
fluxes. -/
theorem roe_waves (hγ : 1 < γ) (hl : Good l) (hr : Good r) (i : Fin 3) :
    let d := roeData γ l r
    d.alpha 0 * d.wave 0 i + d.alpha 1 * d.wave 1 i + d.alpha 2 * d.wave 2 i =
      state γ r i - state γ l i ∧
    d.speed 0 * d.alpha 0 * d.wave 0 i + d.speed 1 * d.alpha 1 * d.wave 1 i +
      d.speed 2 * d.alpha 2 * d.wave 2 i = physFlux γ r i - physFlux γ l i := by
  obtain ⟨haa, hh⟩ := roe_aa hγ hl hr
  obtain ⟨i1, i2, i3⟩ := roe_identities hγ hl hr
  have hg : γ - 1 ≠ 0 := by linarith
  have ha : (roeData γ l r).a ^ 2 = (roeData γ l r).aa := Real.sq_sqrt haa.le
  have hke : (roeData γ l r).ke = (roeData γ l r).u ^ 2 / 2 := by
    rw [pow_two]; rfl
  have hx : (roeData γ l r).alpha 0 + (roeData γ l r).alpha 2 = (r.p - l.p) / (roeData γ l r).aa := by
    have e0 : (roeData γ l r).alpha 0 = (r.p - l.p - (roeData γ l r).rho * (roeData γ l r).a *
      (r.u - l.u)) / (2 * (roeData γ l r).aa) := rfl
    have e2 : (roeData γ l r).alpha 2 = (r.p - l.p + (roeData γ l r).rho * (roeData γ l r).a *
      (r.u - l.u)) / (2 * (roeData γ l r).aa) := rfl
    rw [e0, e2]; field_simp; ring
  have hy : (roeData γ l r).a * ((roeData γ l r).alpha 2 - (roeData γ l r).alpha 0) =
      (roeData γ l r).rho * (r.u - l.u) := by
    have e0 : (roeData γ l r).alpha 0 = (r.p - l.p - (roeData γ l r).rho * (roeData γ l r).a *
      (r.u - l.u)) / (2 * (roeData γ l r).aa) := rfl
    have e2 : (roeData γ l r).alpha 2 = (r.p - l.p + (roeData γ l r).rho * (roeData γ l r).a *
      (r.u - l.u)) / (2 * (roeData γ l r).aa) := rfl
    rw [e0, e2]; field_simp
    linear_combination (2 * (roeData γ l r).rho * (r.u - l.u)) * ha
  have hz : (roeData γ l r).alpha 1 = (r.rho - l.rho) - (r.p - l.p) / (roeData γ l r).aa := rfl
  have hp : (roeData γ l r).aa * ((r.p - l.p) / (roeData γ l r).aa) = r.p - l.p := by field_simp
  simp only [RoeData.wave, RoeData.speed]
  generalize roeData γ l r = d at *
  rw [hz]
  generalize (r.p - l.p) / d.aa = P at *
  have hh' : (γ - 1) * (d.h0 - d.ke) = d.aa := by rw [hh]; field_simp
  have hhP : (d.h0 - d.ke) * P = (r.p - l.p) / (γ - 1) := by
    rw [← hp, ← hh']; field_simp
  fin_cases i <;>
    simp only [state, physFlux, energy, Fin.zero_eta, Fin.mk_one, Fin.reduceFinMk, Fin.isValue,
      Matrix.cons_val] <;> constructor
  · linear_combination hx
  · linear_combination i1 + hy + d.u * hx
  · linear_combination i1 + hy + d.u * hx
  · linear_combination 2 * i2 + 2 * d.u * hy + (d.u ^ 2 + d.a ^ 2) * hx + P * ha + hp
  · linear_combination i2 + d.u * hy + d.h0 * hx + hhP + (r.rho - l.rho) * hke
  · have h5 : γ / (γ - 1) * d.u * (r.p - l.p) = d.u * ((r.p - l.p) / (γ - 1)) + d.u * (r.p - l.p) := by
      field_simp; ring
    have h6 : ∀ p u : ℝ, γ / (γ - 1) * p * u = u * (p / (γ - 1)) + u * p := by
      intro p u; field_simp; ring
    rw [h5, h6, h6] at i3
    linear_combination i3 + (d.h0 + d.u ^ 2) * hy + (d.u * d.h0 + d.u * d.a ^ 2) * hx + d.u * P * ha +
      d.u * hp + d.u * hhP + d.u * (r.rho - l.rho) * hke

theorem roe_state (hγ : 1 < γ) (hl : Good l) (hr : Good r) :
    ∃ f, roe γ (state γ l) (state γ r) = some f ∧ ∀ i, f i = (physFlux γ l i + physFlux γ r i) / 2 -
      1 / 2 * ((roeData γ l r).alpha 0 * |(roeData γ l r).speed 0| * (roeData γ l r).wave 0 i +
        (roeData γ l r).alpha 1 * |(roeData γ l r).speed 1| * (roeData γ l r).wave 1 i +
        (roeData γ l r).alpha 2 * |(roeData γ l r).speed 2| * (roeData γ l r).wave 2 i) := by
  rw [roe, flux_state hγ hl.1 hl.2.le, flux_state hγ hr.1 hr.2.le, toPrim_state hγ hl.1 hl.2.le,
    toPrim_state hγ hr.1 hr.2.le]
  simp only [Option.bind_some]
  rw [if_neg (by simp only [not_or, not_le]; exact ⟨hl.1.ne', hr.1.ne', (roe_aa hγ hl hr).1⟩)]
  refine ⟨_, rfl, fun i => ?_⟩
  have s0 : (roeData γ l r).speed 0 = (roeData γ l r).u - (roeData γ l r).a := rfl
  have s1 : (roeData γ l r).speed 1 = (roeData γ l r).u := rfl
  have s2 : (roeData γ l r).speed 2 = (roeData γ l r).u + (roeData γ l r).a := rfl
  rw [s0, s1, s2]
  ring

/-- The average is a state with the velocity and the speed of sound of the waves. -/
theorem roe_average (hγ : 1 < γ) (hl : Good l) (hr : Good r) :
    ∃ w, Good w ∧ (roeData γ l r).average = state γ w ∧ w.u = (roeData γ l r).u ∧
      sound γ w = (roeData γ l r).a := by
  obtain ⟨haa, hh⟩ := roe_aa hγ hl hr
  have hg : γ - 1 ≠ 0 := by linarith
  have hg0 : 0 < γ := by linarith
  have hsl := Real.sqrt_pos.2 hl.1
  have hsr := Real.sqrt_pos.2 hr.1
  have hpos : 0 < (√l.rho + √r.rho) ^ 2 / 4 := by positivity
  refine ⟨⟨(√l.rho + √r.rho) ^ 2 / 4, (roeData γ l r).u,
    (√l.rho + √r.rho) ^ 2 / 4 * (roeData γ l r).aa / γ⟩, ⟨hpos, by positivity⟩, ?_, rfl, ?_⟩
  · have e : (roeData γ l r).average = ![(√l.rho + √r.rho) ^ 2 / 4,
      (√l.rho + √r.rho) ^ 2 / 4 * (roeData γ l r).u,
      (√l.rho + √r.rho) ^ 2 / 4 * ((roeData γ l r).h0 - (roeData γ l r).aa / γ)] := rfl
    have hke : (roeData γ l r).ke = (roeData γ l r).u ^ 2 / 2 := by rw [pow_two]; rfl
    rw [e]
    simp only [state, energy]
    have e3 : (√l.rho + √r.rho) ^ 2 / 4 * ((roeData γ l r).h0 - (roeData γ l r).aa / γ) =
        (√l.rho + √r.rho) ^ 2 / 4 * (roeData γ l r).aa / γ / (γ - 1) +
          (√l.rho + √r.rho) ^ 2 / 4 * (roeData γ l r).u ^ 2 / 2 := by
      generalize (√l.rho + √r.rho) ^ 2 / 4 = A
      have hh0 : (roeData γ l r).h0 = (roeData γ l r).ke + (roeData γ l r).aa / (γ - 1) := by linarith
      rw [hh0, hke]
      field_simp
      ring
    rw [e3]
  · have ea : (roeData γ l r).a = √(roeData γ l r).aa := rfl
    rw [sound, ea]
    congr 1
    dsimp only
    generalize (√l.rho + √r.rho) ^ 2 / 4 = A at *
    field_simp

end

/-! ### Positivity -/

/-- The cone of states with positive density and internal energy. -/
def InCone (U : Vec) : Prop := 0 < U 0 ∧ U 1 ^ 2 < 2 * U 0 * U 2

theorem InCone.add {U V : Vec} (hU : InCone U) (hV : InCone V) : InCone (U + V) := by
  obtain ⟨a1, b1⟩ := hU
  obtain ⟨a2, b2⟩ := hV
  refine ⟨by simpa using add_pos a1 a2, ?_⟩
  simp only [Pi.add_apply]
  generalize U 0 = x at *
  generalize V 0 = y at *
  generalize U 1 = m at *
  generalize V 1 = n at *
  have h1 : m ^ 2 * y / x < 2 * y * U 2 := by
    rw [div_lt_iff₀ a1]; nlinarith
  have h2 : n ^ 2 * x / y < 2 * x * V 2 := by
    rw [div_lt_iff₀ a2]; nlinarith
  have h3 : 2 * m * n ≤ m ^ 2 * y / x + n ^ 2 * x / y := by
    have : m ^ 2 * y / x + n ^ 2 * x / y - 2 * m * n = (m * y - n * x) ^ 2 / (x * y) := by
      field_simp; ring
    have : 0 ≤ (m * y - n * x) ^ 2 / (x * y) := by positivity
    linarith
  nlinarith

theorem InCone.smul {U : Vec} (hU : InCone U) {t : ℝ} (ht : 0 < t) : InCone (t • U) := by
  refine ⟨by simpa using mul_pos ht hU.1, ?_⟩
  simp only [Pi.smul_apply, smul_eq_mul]
  have := mul_lt_mul_of_pos_left hU.2 (pow_pos ht 2)
  nlinarith

theorem inCone_iff {γ : ℝ} (hγ : 1 < γ) (U : Vec) : InCone U ↔ ∃ w, Good w ∧ U = state γ w := by
  have hg : 0 < γ - 1 := by linarith
  constructor
  · rintro ⟨h1, h2⟩
    refine ⟨⟨U 0, U 1 / U 0, (γ - 1) * (U 2 - U 1 ^ 2 / (2 * U 0))⟩, ⟨h1, ?_⟩, ?_⟩
    · refine mul_pos hg ?_
      rw [sub_pos, div_lt_iff₀ (by positivity)]
      linarith
    · ext i
      fin_cases i <;> simp only [state, energy, Fin.zero_eta, Fin.mk_one, Fin.reduceFinMk,
        Fin.isValue, Matrix.cons_val] <;> field_simp <;> ring
  · rintro ⟨w, ⟨h1, h2⟩, rfl⟩
    refine ⟨by simpa [state] using h1, ?_⟩
    simp only [state, energy, Matrix.cons_val]
    have : 0 < 2 * w.rho * (w.p / (γ - 1)) := by positivity
    nlinarith

/-- Half of a Lax-Friedrichs step stays in the cone. -/
theorem half_step {γ : ℝ} (hγ : 1 < γ) {w : Prim} (h : Good w) {m s : ℝ} (hm : |w.u| + sound γ w ≤ m)
    (hs : s = 1 ∨ s = -1) : InCone (state γ w + (s / m) • physFlux γ w) := by
  have ha := sound_pos hγ h
  have haa := sound_sq hγ h
  have hg : 0 < γ - 1 := by linarith
  have hm0 : 0 < m := by have := abs_nonneg w.u; linarith
  obtain ⟨h1, h2⟩ := h
  have hk : sound γ w ≤ m + s * w.u := by
    rcases hs with rfl | rfl
    · have := neg_abs_le w.u; linarith
    · have := le_abs_self w.u; linarith
  have hss : s ^ 2 = 1 := by rcases hs with rfl | rfl <;> norm_num
  have hK : 0 < m + s * w.u := by linarith
  have hkk : γ * w.p / w.rho ≤ (m + s * w.u) ^ 2 := by
    rw [← haa]; exact pow_le_pow_left₀ ha.le hk 2
  refine ⟨?_, ?_⟩
  · simp only [state, physFlux, Pi.add_apply, Pi.smul_apply, Matrix.cons_val, smul_eq_mul]
    have : w.rho + s / m * (w.rho * w.u) = w.rho * (m + s * w.u) / m := by field_simp
    rw [this]; positivity
  · simp only [state, physFlux, energy, Pi.add_apply, Pi.smul_apply, Matrix.cons_val, smul_eq_mul]
    have key : 2 * (w.rho + s / m * (w.rho * w.u)) *
        (w.p / (γ - 1) + w.rho * w.u ^ 2 / 2 +
          s / m * (w.u * (w.p / (γ - 1) + w.rho * w.u ^ 2 / 2 + w.p))) -
        (w.rho * w.u + s / m * (w.rho * w.u ^ 2 + w.p)) ^ 2 =
        w.p / (m ^ 2 * (γ - 1)) * (2 * w.rho * (m + s * w.u) ^ 2 - (γ - 1) * w.p) := by
      field_simp
      linear_combination (-(γ - 1) * w.p ^ 2) * hss
    have h3 : γ * w.p ≤ w.rho * (m + s * w.u) ^ 2 := by
      rw [div_le_iff₀ h1] at hkk; linarith
    have h4 : 0 < 2 * w.rho * (m + s * w.u) ^ 2 - (γ - 1) * w.p := by nlinarith
    have h5 : 0 < w.p / (m ^ 2 * (γ - 1)) * (2 * w.rho * (m + s * w.u) ^ 2 - (γ - 1) * w.p) := by
      positivity
    linarith

end MiniCFD.PyEuler
