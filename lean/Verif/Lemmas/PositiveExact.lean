import Verif.Lemmas.PositiveHllc
import Verif.Lemmas.ExactWaves
import Mathlib.Analysis.Calculus.MeanValue
import Mathlib.Analysis.SpecialFunctions.Pow.Deriv
import Mathlib.Analysis.Calculus.Deriv.Mul
import Mathlib.Analysis.Calculus.Deriv.Add

/-! The exact solver in the axes of a face: fans, shocks, and what the code puts in their place. -/

namespace MiniCFD.Positive

open MiniCFD.Euler MiniCFD.Spec.Euler MiniCFD.Spec.Positive MiniCFD.Exact MiniCFD.Spec.Exact

/-! ### Fans -/

/-- The speed of sound on a ray of the fan of a gas on the left. -/
noncomputable def fanA (γ : ℝ) (l : P3) (ξ : ℝ) : ℝ := (γ - 1) / (γ + 1) * (l.u + 2 / (γ - 1) * c γ l - ξ)

noncomputable def fanRho (γ : ℝ) (l : P3) (ξ : ℝ) : ℝ := l.rho * (fanA γ l ξ / c γ l) ^ (2 / (γ - 1))

/-- The state on a ray. -/
noncomputable def fan (γ : ℝ) (l : P3) (ξ : ℝ) : P3 :=
  ⟨fanRho γ l ξ, fanA γ l ξ + ξ, fanRho γ l ξ * (fanA γ l ξ * fanA γ l ξ) / γ⟩

section

variable {γ : ℝ} (hγ : 1 < γ) {l : P3} (hl : Good l)
include hγ

theorem fanA_deriv (ξ : ℝ) : HasDerivAt (fanA γ l) (-((γ - 1) / (γ + 1))) ξ := by
  have h := ((hasDerivAt_id ξ).const_sub (l.u + 2 / (γ - 1) * c γ l)).const_mul ((γ - 1) / (γ + 1))
  have e : (γ - 1) / (γ + 1) * -1 = -((γ - 1) / (γ + 1)) := by ring
  rw [e] at h
  exact h

theorem fanA_mono {ξ ζ : ℝ} (h : ξ ≤ ζ) : fanA γ l ζ ≤ fanA γ l ξ :=
  mul_le_mul_of_nonneg_left (by linarith) (div_nonneg (by linarith) (by linarith))

include hl

theorem fanRho_deriv {ξ : ℝ} (ha : 0 < fanA γ l ξ) :
    HasDerivAt (fanRho γ l) (-(2 / (γ + 1)) * (fanRho γ l ξ / fanA γ l ξ)) ξ := by
  have hc := c_pos hγ hl
  have hx : 0 < fanA γ l ξ / c γ l := div_pos ha hc
  have h := (((fanA_deriv hγ (l := l) ξ).div_const (c γ l)).rpow_const (p := 2 / (γ - 1)) (Or.inl hx.ne')).const_mul l.rho
  refine h.congr_deriv ?_
  rw [Real.rpow_sub_one hx.ne']
  have h1 : γ - 1 ≠ 0 := by linarith
  have h2 : γ + 1 ≠ 0 := by linarith
  have h3 := ha.ne'
  have h4 := hc.ne'
  unfold fanRho
  field_simp

theorem fanRho_pos {ξ : ℝ} (ha : 0 < fanA γ l ξ) : 0 < fanRho γ l ξ :=
  mul_pos hl.1 (Real.rpow_pos_of_pos (div_pos ha (c_pos hγ hl)) _)

theorem fan_good {ξ : ℝ} (ha : 0 < fanA γ l ξ) : Good (fan γ l ξ) :=
  ⟨fanRho_pos hγ hl ha, div_pos (mul_pos (fanRho_pos hγ hl ha) (mul_pos ha ha)) (by linarith)⟩

/-- The slope of the energy on the rays. -/
noncomputable def slopeL (γ v K : ℝ) (l : P3) (ξ : ℝ) : ℝ :=
  2 / (γ + 1) * (fanRho γ l ξ / fanA γ l ξ) * (fanA γ l ξ * ((fan γ l ξ).u - v) -
    fanA γ l ξ * fanA γ l ξ / (γ - 1) - ((fan γ l ξ).u - v) * ((fan γ l ξ).u - v) / 2 - K)

theorem fanU_deriv (v ξ : ℝ) : HasDerivAt (fun ξ => (fan γ l ξ).u - v) (2 / (γ + 1)) ξ := by
  have h := (((fanA_deriv hγ (l := l) ξ).add (hasDerivAt_id ξ)).sub_const v)
  refine h.congr_deriv ?_
  have h2 : γ + 1 ≠ 0 := by linarith
  field_simp
  ring

theorem fanP_deriv {ξ : ℝ} (ha : 0 < fanA γ l ξ) :
    HasDerivAt (fun ξ => (fan γ l ξ).p) (-(2 / (γ + 1)) * (fanRho γ l ξ * fanA γ l ξ)) ξ := by
  have h := ((fanRho_deriv hγ hl ha).mul ((fanA_deriv hγ (l := l) ξ).mul (fanA_deriv hγ (l := l) ξ))).div_const γ
  refine h.congr_deriv ?_
  have h2 : γ + 1 ≠ 0 := by linarith
  have h3 := ha.ne'
  have h4 : γ ≠ 0 := by linarith
  simp only [Pi.mul_apply]
  field_simp
  ring

theorem fanL_deriv (v K : ℝ) {ξ : ℝ} (ha : 0 < fanA γ l ξ) :
    HasDerivAt (fun ξ => L γ v K (fan γ l ξ)) (slopeL γ v K l ξ) ξ := by
  have hu := fanU_deriv hγ hl v ξ
  have h := ((fanP_deriv hγ hl ha).div_const (γ - 1)).add
    ((fanRho_deriv hγ hl ha).mul (((hu.mul hu).div_const 2).add_const K))
  refine h.congr_deriv ?_
  have h2 : γ + 1 ≠ 0 := by linarith
  have h3 := ha.ne'
  have h4 : γ - 1 ≠ 0 := by linarith
  simp only [slopeL, Pi.mul_apply]
  field_simp
  ring

/-- Energy which passes a ray. -/
noncomputable def pass (γ v K : ℝ) (l : P3) (ξ : ℝ) : ℝ :=
  fanA γ l ξ * L γ v K (fan γ l ξ) + (fan γ l ξ).p * ((fan γ l ξ).u - v)

theorem pass_deriv (v K : ℝ) {ξ : ℝ} (ha : 0 < fanA γ l ξ) :
    HasDerivAt (pass γ v K l) (-L γ v K (fan γ l ξ)) ξ := by
  have h := ((fanA_deriv hγ (l := l) ξ).mul (fanL_deriv hγ hl v K ha)).add
    ((fanP_deriv hγ hl ha).mul (fanU_deriv hγ hl v ξ))
  refine h.congr_deriv ?_
  have h2 : γ + 1 ≠ 0 := by linarith
  have h3 := ha.ne'
  have h4 : γ - 1 ≠ 0 := by linarith
  have h5 : γ ≠ 0 := by linarith
  have e : (fan γ l ξ).p = fanRho γ l ξ * (fanA γ l ξ * fanA γ l ξ) / γ := rfl
  have e2 : (fan γ l ξ).rho = fanRho γ l ξ := rfl
  simp only [slopeL, L, e, e2]
  generalize (fan γ l ξ).u - v = x
  field_simp
  ring

theorem pass_anti {v K : ℝ} (hK : 0 ≤ K) {ξ ζ : ℝ} (h : ξ ≤ ζ) (ha : 0 < fanA γ l ζ) :
    pass γ v K l ζ ≤ pass γ v K l ξ := by
  have hpos : ∀ x ∈ Set.Icc ξ ζ, 0 < fanA γ l x := fun x hx => lt_of_lt_of_le ha (fanA_mono hγ hx.2)
  have anti : AntitoneOn (pass γ v K l) (Set.Icc ξ ζ) := by
    refine antitoneOn_of_deriv_nonpos (convex_Icc _ _)
      (fun x hx => (pass_deriv hγ hl v K (hpos x hx)).continuousAt.continuousWithinAt)
      (fun x hx => (pass_deriv hγ hl v K (hpos x (interior_subset hx))).differentiableAt.differentiableWithinAt) ?_
    intro x hx
    have hp := hpos x (interior_subset hx)
    rw [(pass_deriv hγ hl v K hp).deriv, neg_nonpos]
    exact L_nonneg hγ (fan_good hγ hl hp) hK
  exact anti ⟨le_rfl, h⟩ ⟨h, le_rfl⟩ h

theorem pass_Q (v K ξ : ℝ) : Q γ v K (fan γ l ξ) = pass γ v K l ξ + ξ * L γ v K (fan γ l ξ) := by
  have e : (fan γ l ξ).u = fanA γ l ξ + ξ := rfl
  simp only [Q, pass]
  rw [show (fan γ l ξ).u * L γ v K (fan γ l ξ) = (fanA γ l ξ + ξ) * L γ v K (fan γ l ξ) by rw [e]]
  ring

theorem slopeL_nonpos (h3 : γ ≤ 3) {v K : ℝ} (hK : 0 ≤ K) {ξ : ℝ} (ha : 0 < fanA γ l ξ) : slopeL γ v K l ξ ≤ 0 := by
  have h1 : 0 ≤ 2 / (γ + 1) * (fanRho γ l ξ / fanA γ l ξ) :=
    mul_nonneg (div_nonneg two_pos.le (by linarith)) (div_nonneg (fanRho_pos hγ hl ha).le ha.le)
  refine mul_nonpos_of_nonneg_of_nonpos h1 ?_
  generalize (fan γ l ξ).u - v = x
  generalize fanA γ l ξ = a at *
  have h2 : a * a / 2 ≤ a * a / (γ - 1) := div_le_div_of_nonneg_left (mul_self_nonneg a) (by linarith) (by linarith)
  nlinarith [mul_self_nonneg (x - a)]

theorem Q_anti (h3 : γ ≤ 3) {v K : ℝ} (hK : 0 ≤ K) {ξ ζ : ℝ} (h0 : 0 ≤ ξ) (h : ξ ≤ ζ) (ha : 0 < fanA γ l ζ) :
    Q γ v K (fan γ l ζ) ≤ Q γ v K (fan γ l ξ) := by
  have hpos : ∀ x ∈ Set.Icc ξ ζ, 0 < fanA γ l x := fun x hx => lt_of_lt_of_le ha (fanA_mono hγ hx.2)
  have hd : ∀ x ∈ Set.Icc ξ ζ, HasDerivAt (fun x => Q γ v K (fan γ l x)) (x * slopeL γ v K l x) x := by
    intro x hx
    have hp := hpos x hx
    have h := (pass_deriv hγ hl v K hp).add ((hasDerivAt_id x).mul (fanL_deriv hγ hl v K hp))
    have e : (fun x => Q γ v K (fan γ l x)) = fun x => pass γ v K l x + x * L γ v K (fan γ l x) :=
      _root_.funext fun x => pass_Q hγ hl v K x
    rw [e]
    refine h.congr_deriv ?_
    simp only [id]
    ring
  have anti : AntitoneOn (fun x => Q γ v K (fan γ l x)) (Set.Icc ξ ζ) := by
    refine antitoneOn_of_deriv_nonpos (convex_Icc _ _)
      (fun x hx => (hd x hx).continuousAt.continuousWithinAt)
      (fun x hx => (hd x (interior_subset hx)).differentiableAt.differentiableWithinAt) ?_
    intro x hx
    have hx' := interior_subset hx
    rw [(hd x hx').deriv]
    exact mul_nonpos_of_nonneg_of_nonpos (h0.trans hx'.1) (slopeL_nonpos hγ hl h3 hK (hpos x hx'))
  exact anti ⟨le_rfl, h⟩ ⟨h, le_rfl⟩ h

/-- The fan begins in the gas. -/
theorem fan_begin : fan γ l (l.u - c γ l) = l ∧ fanA γ l (l.u - c γ l) = c γ l := by
  have hc := c_pos hγ hl
  have h1 : γ - 1 ≠ 0 := by linarith
  have h2 : γ + 1 ≠ 0 := by linarith
  have ha : fanA γ l (l.u - c γ l) = c γ l := by
    unfold fanA
    field_simp
    ring
  have hr : fanRho γ l (l.u - c γ l) = l.rho := by
    unfold fanRho
    rw [ha, div_self hc.ne', Real.one_rpow, mul_one]
  refine ⟨?_, ha⟩
  unfold fan
  rw [ha, hr, c_sq hγ hl]
  have h3 := hl.1.ne'
  have h4 : γ ≠ 0 := by linarith
  ext
  · rfl
  · simp
  · simp only
    field_simp

/-- The state of a pressure below that of the gas. -/
noncomputable def behind (γ : ℝ) (l : P3) (p : ℝ) : P3 :=
  ⟨γ * p / (soundFan γ l p * soundFan γ l p), l.u - psi γ l p, p⟩

theorem fan_behind {p : ℝ} (hp : 0 < p) :
    fan γ l (l.u - psi γ l p - soundFan γ l p) = behind γ l p ∧
    fanA γ l (l.u - psi γ l p - soundFan γ l p) = soundFan γ l p := by
  have hc := c_pos hγ hl
  have hs := soundFan_pos hγ hl hp
  have h1 : γ - 1 ≠ 0 := by linarith
  have h2 : γ + 1 ≠ 0 := by linarith
  have h4 : γ ≠ 0 := by linarith
  have hx := div_pos hp hl.2
  have hpsi : psi γ l p = 2 / (γ - 1) * (soundFan γ l p - c γ l) := by
    unfold psi soundFan
    ring
  have ha : fanA γ l (l.u - psi γ l p - soundFan γ l p) = soundFan γ l p := by
    unfold fanA
    rw [hpsi]
    field_simp
    ring
  have hr : fanRho γ l (l.u - psi γ l p - soundFan γ l p) = γ * p / (soundFan γ l p * soundFan γ l p) := by
    have e1 : soundFan γ l p * soundFan γ l p = γ * l.p / l.rho * (p / l.p) ^ ((γ - 1) / γ) := by
      unfold soundFan
      rw [mul_mul_mul_comm, c_sq hγ hl, ← Real.rpow_add hx]
      congr 2
      ring
    have e2 : fanRho γ l (l.u - psi γ l p - soundFan γ l p) = l.rho * (p / l.p) ^ (1 / γ) := by
      unfold fanRho
      rw [ha]
      unfold soundFan
      rw [mul_div_cancel_left₀ _ hc.ne', ← Real.rpow_mul hx.le]
      congr 2
      field_simp
    have e3 : (p / l.p) ^ ((γ - 1) / γ) * (p / l.p) ^ (1 / γ) = p / l.p := by
      rw [← Real.rpow_add hx, show (γ - 1) / γ + 1 / γ = 1 by field_simp; ring, Real.rpow_one]
    have h5 := hl.1.ne'
    have h6 := hl.2.ne'
    rw [eq_div_iff (mul_pos hs hs).ne', e1, e2]
    calc l.rho * (p / l.p) ^ (1 / γ) * (γ * l.p / l.rho * (p / l.p) ^ ((γ - 1) / γ))
        = γ * l.p * ((p / l.p) ^ ((γ - 1) / γ) * (p / l.p) ^ (1 / γ)) := by field_simp
      _ = γ * p := by rw [e3]; field_simp
  refine ⟨?_, ha⟩
  unfold fan behind
  rw [ha, hr]
  have := hs.ne'
  ext
  · rfl
  · simp
  · simp only
    field_simp

/-- The sonic state of the code. -/
theorem fan_sonic (h0 : 0 < l.u + 2 / (γ - 1) * c γ l) :
    insideExpansion γ (l.p / l.rho ^ γ) (l.u + 2 / (γ - 1) * c γ l) = fan γ l 0 ∧ 0 < fanA γ l 0 := by
  have hc := c_pos hγ hl
  have h1 : 0 < γ - 1 := by linarith
  have ha : 0 < fanA γ l 0 := by
    unfold fanA
    rw [sub_zero]
    exact mul_pos (div_pos h1 (by linarith)) h0
  have hA : fanA γ l 0 = (γ - 1) / (γ + 1) * (l.u + 2 / (γ - 1) * c γ l) := by unfold fanA; rw [sub_zero]
  have hr : (fanA γ l 0 * fanA γ l 0 / (l.p / l.rho ^ γ) * (1 / γ)) ^ (1 / (γ - 1)) = fanRho γ l 0 := by
    have hrg := Real.rpow_pos_of_pos hl.1 γ
    have e1 : fanA γ l 0 * fanA γ l 0 / (l.p / l.rho ^ γ) * (1 / γ) =
        l.rho ^ (γ - 1) * ((fanA γ l 0 / c γ l) * (fanA γ l 0 / c γ l)) := by
      rw [Real.rpow_sub_one hl.1.ne', div_mul_div_comm (fanA γ l 0) (c γ l), c_sq hγ hl]
      have h2 := hl.1.ne'
      have h3 := hl.2.ne'
      have h4 : γ ≠ 0 := by linarith
      field_simp
    have hx : 0 < fanA γ l 0 / c γ l := div_pos ha hc
    rw [e1, Real.mul_rpow (Real.rpow_pos_of_pos hl.1 _).le (mul_pos hx hx).le, ← Real.rpow_mul hl.1.le,
      mul_one_div_cancel h1.ne', Real.rpow_one]
    unfold fanRho
    congr 1
    rw [← sq, ← Real.rpow_natCast, ← Real.rpow_mul hx.le]
    congr 1
    push_cast
    ring
  refine ⟨?_, ha⟩
  unfold insideExpansion fan
  dsimp only
  rw [← hA, hr]
  ext
  · rfl
  · simp
  · simp only
    ring

end

end MiniCFD.Positive
