import Verif.Lemmas.PyEuler
import Mathlib.Analysis.Calculus.Deriv.Add
import Mathlib.Analysis.Calculus.Deriv.Comp
import Mathlib.Analysis.Calculus.Deriv.Mul
import Mathlib.LinearAlgebra.Matrix.NonsingularInverse
import Mathlib.Analysis.Calculus.Deriv.Inv
import Mathlib.Analysis.Calculus.Deriv.Pow
import Mathlib.Tactic.NormNum

/-! C87, C88, C89: the one-dimensional Euler equations of the Python code, the Roe flux and the
Lax-Friedrichs flux. -/

set_option linter.unusedSimpArgs false

namespace MiniCFD.PyEuler
open MiniCFD.Spec.PyEuler Matrix

section equation
variable {γ : ℝ} {w : Prim}

/-- C87.  Primitive and conservative variables can be taken back and forth. -/
theorem round_trip (hγ : 1 < γ) :
    (∀ w : Prim, 0 < w.rho → 0 ≤ w.p → toPrim γ (toCons γ w) = some w) ∧
    (∀ U w, toPrim γ U = some w → toCons γ w = U) :=
  ⟨fun w h hp => by rw [toCons_eq]; exact toPrim_state hγ h hp,
   fun U w h => by rw [toCons_eq]; exact (toPrim_some hγ h).1⟩

/-- C87.  The conversion succeeds exactly for states of non-negative density and pressure, vacuum
included. -/
theorem toPrim_defined (hγ : 1 < γ) (U : Vec) :
    (∃ w, toPrim γ U = some w) ↔
      U = 0 ∨ ∃ w : Prim, 0 < w.rho ∧ 0 ≤ w.p ∧ U = state γ w := by
  constructor
  · rintro ⟨w, h⟩
    obtain ⟨e, h1, h2⟩ := toPrim_some hγ h
    rcases h1.eq_or_lt with h0 | h0
    · left
      by_contra hne
      simp only [toPrim] at h
      have hU0 : U 0 = 0 := by rw [← e]; simp [state, ← h0]
      rw [if_pos hU0] at h
      split at h
      next h12 =>
        exact hne (funext fun i => by fin_cases i <;> simp [hU0, h12.1, h12.2])
      next => cases h
    · exact Or.inr ⟨w, h0, h2, e.symm⟩
  · rintro (rfl | ⟨w, h1, h2, rfl⟩)
    · exact ⟨⟨0, 0, 0⟩, by simp [toPrim]⟩
    · exact ⟨w, toPrim_state hγ h1 h2⟩

/-- C87.  The flux is that of mass, momentum and energy of an ideal gas. -/
theorem flux_physical (hγ : 1 < γ) (h : 0 < w.rho) (hp : 0 ≤ w.p) :
    flux γ (toCons γ w) = some (physFlux γ w) := by
  rw [toCons_eq]; exact flux_state hγ h hp

/-- C87.  The Jacobian is the derivative of the flux: along every smooth curve of states the flux
changes by the Jacobian times the change of the state. -/
theorem jacobian_is_derivative (hγ : 1 < γ) {v : ℝ → Prim} {x dr du dp : ℝ} (h : Good (v x))
    (hr : HasDerivAt (fun y => (v y).rho) dr x) (hu : HasDerivAt (fun y => (v y).u) du x)
    (hp : HasDerivAt (fun y => (v y).p) dp x) :
    ∃ J dU, jacobian γ (state γ (v x)) = some J ∧
      (∀ i, HasDerivAt (fun y => state γ (v y) i) (dU i) x) ∧
      ∀ i, HasDerivAt (fun y => physFlux γ (v y) i) ((J *ᵥ dU) i) x := by
  have hg : γ - 1 ≠ 0 := by linarith
  have hE : HasDerivAt (fun y => energy γ (v y))
      (dp / (γ - 1) + (dr * (v x).u ^ 2 / 2 + (v x).rho * (v x).u * du)) x := by
    have := (hp.div_const (γ - 1)).add ((hr.mul (hu.fun_pow 2)).div_const 2)
    refine this.congr_deriv ?_
    simp only [Nat.cast_ofNat]; ring
  refine ⟨_, ![dr, dr * (v x).u + (v x).rho * du,
    dp / (γ - 1) + (dr * (v x).u ^ 2 / 2 + (v x).rho * (v x).u * du)],
    jacobian_state hγ h, fun i => ?_, fun i => ?_⟩
  · fin_cases i
    · exact hr
    · exact hr.mul hu
    · exact hE
  · have hs := sound_sq hγ h
    have h1 := h.1
    fin_cases i
    · refine (hr.mul hu).congr_deriv ?_
      simp [jacMat, Matrix.mulVec, dotProduct, Fin.sum_univ_three]
    · refine ((hr.mul (hu.fun_pow 2)).add hp).congr_deriv ?_
      simp [jacMat, Matrix.mulVec, dotProduct, Fin.sum_univ_three]
      field_simp
      ring
    · refine (hu.mul (hE.add hp)).congr_deriv ?_
      simp [jacMat, Matrix.mulVec, dotProduct, Fin.sum_univ_three, hs, energy]
      field_simp
      ring

/-- C87.  The flux is homogeneous of degree one: it is the Jacobian times the state. -/
theorem homogeneous (hγ : 1 < γ) (h : Good w) :
    ∃ J, jacobian γ (state γ w) = some J ∧ J *ᵥ state γ w = physFlux γ w := by
  refine ⟨_, jacobian_state hγ h, ?_⟩
  have hs := sound_sq hγ h
  have h1 := h.1
  have hg : γ - 1 ≠ 0 := by linarith
  ext i
  fin_cases i
  · simp [jacMat, Matrix.mulVec, dotProduct, Fin.sum_univ_three, state, physFlux]
  · simp [jacMat, Matrix.mulVec, dotProduct, Fin.sum_univ_three, state, physFlux, energy]
    field_simp
    ring
  · simp [jacMat, Matrix.mulVec, dotProduct, Fin.sum_univ_three, state, physFlux, energy, hs]
    field_simp
    ring

/-- C87.  The eigenvalues are real, distinct, increasing, and `|u| + a` is the largest in modulus;
the matrices are inverse to each other and diagonalise the Jacobian with them. -/
theorem eigen (hγ : 1 < γ) (h : Good w) :
    ∃ J L R l, jacobian γ (state γ w) = some J ∧ eigmats γ (state γ w) = some (L, R) ∧
      eigvals γ (state γ w) = some l ∧ l 0 < l 1 ∧ l 1 < l 2 ∧ L * R = 1 ∧ R * L = 1 ∧
      J * R = R * Matrix.diagonal l ∧ L * J = Matrix.diagonal l * L ∧
      radius γ (state γ w) = some (|w.u| + sound γ w) := by
  have ha := sound_pos hγ h
  have h1 := left_mul_right (γ := γ) (u := w.u) hγ ha.ne'
  have h2 := jac_mul_right (γ := γ) (u := w.u) (a := sound γ w) hγ
  have h3 : rightMat γ w.u (sound γ w) * leftMat γ w.u (sound γ w) = 1 := mul_eq_one_comm.1 h1
  refine ⟨_, _, _, _, jacobian_state hγ h, eigmats_state hγ h, eigvals_state hγ h, ?_, ?_, h1, h3, h2,
    ?_, ?_⟩
  · simp [ha]
  · simp [ha]
  · calc leftMat γ w.u (sound γ w) * jacMat γ w.u (sound γ w)
        = leftMat γ w.u (sound γ w) * (jacMat γ w.u (sound γ w) * rightMat γ w.u (sound γ w)) *
          leftMat γ w.u (sound γ w) := by
          rw [Matrix.mul_assoc, Matrix.mul_assoc, h3, Matrix.mul_one]
      _ = _ := by rw [h2, ← Matrix.mul_assoc, h1, Matrix.one_mul]
  · rw [radius, eigvals_state hγ h, Option.map_some]
    refine congrArg some ?_
    simp only [Matrix.cons_val]
    rcases le_total 0 w.u with hu | hu
    · rw [abs_of_nonneg hu, abs_of_nonneg (by linarith : 0 ≤ w.u + sound γ w)]
      refine max_eq_right (max_le ?_ (by linarith))
      rw [abs_le]; constructor <;> linarith
    · rw [abs_of_nonpos hu, abs_of_nonpos (by linarith : w.u - sound γ w ≤ 0)]
      rw [max_eq_left (by linarith : -w.u ≤ -(w.u - sound γ w)), max_eq_left]
      · ring
      · rw [abs_le]; constructor <;> linarith

/-- C87.  A viscosity for each characteristic variable: the matrix has the eigenvectors of the
Jacobian and the viscosities for eigenvalues; equal viscosities give a scalar. -/
theorem vector_viscosity (hγ : 1 < γ) (h : Good w) (nu : Vec) :
    ∃ L R B, eigmats γ (state γ w) = some (L, R) ∧ matrixNu γ (state γ w) nu = some B ∧
      B * R = R * Matrix.diagonal nu ∧ (∀ c : ℝ, nu = (fun _ => c) → B = c • (1 : Mat)) := by
  have h1 := left_mul_right (γ := γ) (u := w.u) hγ (sound_pos hγ h).ne'
  have h3 : rightMat γ w.u (sound γ w) * leftMat γ w.u (sound γ w) = 1 := mul_eq_one_comm.1 h1
  have hB : matrixNu γ (state γ w) nu = some (rightMat γ w.u (sound γ w) * Matrix.diagonal nu *
      leftMat γ w.u (sound γ w)) := by
    rw [matrixNu, eigmats_state hγ h, Option.map_some]
    refine congrArg some ?_
    ext i j
    generalize rightMat γ w.u (sound γ w) = R
    generalize leftMat γ w.u (sound γ w) = L
    simp [Matrix.mul_apply, Fin.sum_univ_three, Matrix.diagonal]
    ring
  refine ⟨_, _, _, eigmats_state hγ h, hB, ?_, ?_⟩
  · rw [Matrix.mul_assoc, h1, Matrix.mul_one]
  · rintro c rfl
    have : (Matrix.diagonal fun _ => c : Mat) = c • 1 := by
      ext i j; simp [Matrix.diagonal, Matrix.one_apply]
    rw [this, Matrix.mul_smul, Matrix.mul_one, Matrix.smul_mul, h3]

/-- C87.  A single viscosity: no mass is diffused, the stress is `4/3 μ u_x`, and heat flows against
the gradient of `p / ρ`, the temperature up to the gas constant. -/
theorem scalar_viscosity (hγ : 1 < γ) {v : ℝ → Prim} {x dr du dp : ℝ} (h : Good (v x))
    (hr : HasDerivAt (fun y => (v y).rho) dr x) (hu : HasDerivAt (fun y => (v y).u) du x)
    (hp : HasDerivAt (fun y => (v y).p) dp x) (nu : ℝ) {pr : ℝ} (_hpr : pr ≠ 0) :
    ∃ dU dT, (∀ i, HasDerivAt (fun y => state γ (v y) i) (dU i) x) ∧
      HasDerivAt (fun y => (v y).p / (v y).rho) dT x ∧
      scalarDiffusion γ (state γ (v x)) dU nu pr = some (
        let mu := (v x).rho * nu
        let tau := 4 / 3 * mu * du
        ![0, tau, tau * (v x).u + mu / pr * (γ / (γ - 1)) * dT]) := by
  have hg : γ - 1 ≠ 0 := by linarith
  have hE : HasDerivAt (fun y => energy γ (v y))
      (dp / (γ - 1) + (dr * (v x).u ^ 2 / 2 + (v x).rho * (v x).u * du)) x := by
    have := (hp.div_const (γ - 1)).add ((hr.mul (hu.fun_pow 2)).div_const 2)
    refine this.congr_deriv ?_
    simp only [Nat.cast_ofNat]; ring
  refine ⟨![dr, dr * (v x).u + (v x).rho * du,
    dp / (γ - 1) + (dr * (v x).u ^ 2 / 2 + (v x).rho * (v x).u * du)], _, fun i => ?_,
    hp.div hr h.1.ne', ?_⟩
  · fin_cases i
    · exact hr
    · exact hr.mul hu
    · exact hE
  · have h1 := h.1
    rw [scalarDiffusion, toPrim_state hγ h.1 h.2.le, Option.bind_some, if_neg h.1.ne']
    have e : (dr * (v x).u + (v x).rho * du - (v x).u * dr) / (v x).rho = du := by field_simp; ring
    simp only [Matrix.cons_val, e, heatFlux]
    refine congrArg some ?_
    congr 3
    field_simp
    ring

/-- C87, characteristic variables: going back with the matrix of the same state works. -/
theorem characteristics_partial (hγ : 1 < γ) (h : Good w) :
    ∃ V L R, toChar γ (state γ w) = some V ∧ eigmats γ (state γ w) = some (L, R) ∧
      R *ᵥ V = state γ w := by
  have h1 := left_mul_right (γ := γ) (u := w.u) hγ (sound_pos hγ h).ne'
  have h3 : rightMat γ w.u (sound γ w) * leftMat γ w.u (sound γ w) = 1 := mul_eq_one_comm.1 h1
  refine ⟨_, _, _, by rw [toChar, eigmats_state hγ h, Option.map_some], eigmats_state hγ h, ?_⟩
  rw [Matrix.mulVec_mulVec, h3, Matrix.one_mulVec]

/-- C87, characteristic variables, refuted: `from_characteristics` after `to_characteristics` does
not return the state it started from, for any state at rest in any gas with `γ < 2`. -/
theorem characteristics_lost (hγ : 1 < γ) (hγ2 : γ < 2) (h : Good w) (hu : w.u = 0) :
    ∃ V, toChar γ (state γ w) = some V ∧ fromChar γ V ≠ some (state γ w) := by
  have ha := sound_pos hγ h
  have hs := sound_sq hγ h
  have h1 := h.1
  have h2 := h.2
  have hg : γ - 1 ≠ 0 := by linarith
  have hg0 : 0 < γ := by linarith
  have hg1 : 0 < γ - 1 := by linarith
  have hV : toChar γ (state γ w) = some ![w.rho / (2 * γ), (γ - 1) / γ * w.rho, w.rho / (2 * γ)] := by
    rw [toChar, eigmats_state hγ h, Option.map_some]
    refine congrArg some ?_
    ext i
    fin_cases i <;>
      (simp [leftMat, Matrix.mulVec, dotProduct, Fin.sum_univ_three, state, energy, hs, hu]
       field_simp
       try ring)
  refine ⟨_, hV, fun hf => ?_⟩
  rw [fromChar, Option.map_eq_some_iff] at hf
  obtain ⟨m, hm, e⟩ := hf
  simp only [eigmats, Option.bind_eq_some_iff] at hm
  obtain ⟨v, hv, hm⟩ := hm
  split at hm
  · cases hm
  cases hm
  obtain ⟨hst, -, -⟩ := toPrim_some hγ hv
  have e0 := congrFun hst 0
  have e1 := congrFun hst 1
  simp only [state, Matrix.cons_val] at e0 e1
  have hvu : v.u = 2 * (γ - 1) := by
    rw [e0] at e1
    field_simp at e1
    linarith
  have e1 := congrFun e 1
  simp [Matrix.mulVec, dotProduct, Fin.sum_univ_three, state, hu] at e1
  have : v.u * (w.rho / (2 * γ) + (γ - 1) / γ * w.rho + w.rho / (2 * γ)) = 0 := by linarith
  rw [hvu] at this
  have hpos : 0 < 2 * (γ - 1) * (w.rho / (2 * γ) + (γ - 1) / γ * w.rho + w.rho / (2 * γ)) := by
    positivity
  linarith

end equation

section roe
variable {γ : ℝ} {l r : Prim}

/-- C88.  The Roe flux of two states of positive density and pressure exists. -/
theorem roe_defined (hγ : 1 < γ) (hl : Good l) (hr : Good r) :
    ∃ f, roe γ (state γ l) (state γ r) = some f :=
  (roe_state hγ hl hr).imp fun _ h => h.1

/-- C88, Roe's property: the Jacobian at the value the solver reports on the interface takes the jump
of the states to the jump of the fluxes; it has the speeds of the waves for eigenvalues. -/
theorem roe_linearisation (hγ : 1 < γ) (hl : Good l) (hr : Good r) :
    ∃ U J, roeUpwindValue γ (state γ l) (state γ r) = some U ∧ jacobian γ U = some J ∧
      J *ᵥ (state γ r - state γ l) = physFlux γ r - physFlux γ l ∧
      eigvals γ U = some (roeData γ l r).speed ∧ ∃ w, Good w ∧ U = state γ w := by
  obtain ⟨w, hw, e, hu, ha⟩ := roe_average hγ hl hr
  refine ⟨state γ w, _, ?_, jacobian_state hγ hw, ?_, ?_, w, hw, rfl⟩
  · rw [roeUpwindValue, toPrim_state hγ hl.1 hl.2.le, toPrim_state hγ hr.1 hr.2.le, ← e]
    rfl
  · obtain ⟨haa, hh⟩ := roe_aa hγ hl hr
    rw [hu, ha]
    have hJ := jac_mul_right (γ := γ) (u := (roeData γ l r).u) (a := (roeData γ l r).a) hγ
    have hke : (roeData γ l r).ke = (roeData γ l r).u ^ 2 / 2 := by rw [pow_two]; rfl
    have haa' : (roeData γ l r).a ^ 2 = (roeData γ l r).aa := Real.sq_sqrt haa.le
    have hh0 : (roeData γ l r).h0 = (roeData γ l r).a ^ 2 / (γ - 1) + (roeData γ l r).u ^ 2 / 2 := by
      rw [haa', ← hke]; linarith
    have hcol : ∀ k i, (roeData γ l r).wave k i =
        rightMat γ (roeData γ l r).u (roeData γ l r).a i k := by
      intro k i
      fin_cases k <;> fin_cases i <;>
        simp only [RoeData.wave, rightMat, hh0, hke, Fin.zero_eta, Fin.mk_one, Fin.reduceFinMk,
          Fin.isValue, Matrix.cons_val, Matrix.of_apply, Matrix.cons_val']
    have hU : state γ r - state γ l =
        rightMat γ (roeData γ l r).u (roeData γ l r).a *ᵥ (roeData γ l r).alpha := by
      ext i
      have := (roe_waves hγ hl hr i).1
      simp only [Pi.sub_apply, ← this, Matrix.mulVec, dotProduct, Fin.sum_univ_three, ← hcol]
      ring
    rw [hU, Matrix.mulVec_mulVec, hJ, ← Matrix.mulVec_mulVec]
    ext i
    have := (roe_waves hγ hl hr i).2
    rw [Pi.sub_apply, ← this]
    simp only [Matrix.mulVec, dotProduct, Fin.sum_univ_three, ← hcol, Matrix.diagonal_apply]
    simp [RoeData.speed]
    ring
  · rw [eigvals_state hγ hw, hu, ha]
    rfl

/-- C88.  The Roe flux is consistent. -/
theorem roe_consistent (hγ : 1 < γ) (hl : Good l) :
    roe γ (state γ l) (state γ l) = some (physFlux γ l) := by
  obtain ⟨f, hf, e⟩ := roe_state hγ hl hl
  rw [hf]
  refine congrArg some (funext fun i => ?_)
  have h0 : (roeData γ l l).alpha = 0 := by
    ext k; fin_cases k <;> simp [roeData]
  rw [e i, h0]
  simp

/-- C88.  When all waves of the average run to one side, the flux is that of the other side. -/
theorem roe_upwind (hγ : 1 < γ) (hl : Good l) (hr : Good r) :
    ((roeData γ l r).a ≤ (roeData γ l r).u →
      roe γ (state γ l) (state γ r) = some (physFlux γ l)) ∧
    ((roeData γ l r).u ≤ -(roeData γ l r).a →
      roe γ (state γ l) (state γ r) = some (physFlux γ r)) := by
  obtain ⟨f, hf, e⟩ := roe_state hγ hl hr
  have ha : 0 ≤ (roeData γ l r).a := Real.sqrt_nonneg _
  rw [hf]
  have s0 : (roeData γ l r).speed 0 = (roeData γ l r).u - (roeData γ l r).a := rfl
  have s1 : (roeData γ l r).speed 1 = (roeData γ l r).u := rfl
  have s2 : (roeData γ l r).speed 2 = (roeData γ l r).u + (roeData γ l r).a := rfl
  constructor <;> intro h <;> refine congrArg some (funext fun i => ?_) <;>
    have hw := (roe_waves hγ hl hr i).2 <;> rw [e i]
  · rw [abs_of_nonneg (by rw [s0]; linarith), abs_of_nonneg (by rw [s1]; linarith),
      abs_of_nonneg (by rw [s2]; linarith)]
    linear_combination (-1 / 2) * hw
  · rw [abs_of_nonpos (by rw [s0]; linarith), abs_of_nonpos (by rw [s1]; linarith),
      abs_of_nonpos (by rw [s2]; linarith)]
    linear_combination (1 / 2) * hw

/-- C88.  A discontinuity across which the physical flux is continuous is kept as it is: stationary
shocks and contacts are resolved exactly. -/
theorem roe_stationary (hγ : 1 < γ) (hl : Good l) (hr : Good r) (h : physFlux γ l = physFlux γ r) :
    roe γ (state γ l) (state γ r) = some (physFlux γ l) := by
  obtain ⟨f, hf, e⟩ := roe_state hγ hl hr
  obtain ⟨haa, hh⟩ := roe_aa hγ hl hr
  have hg : 0 < γ - 1 := by linarith
  have ha : 0 < (roeData γ l r).a := Real.sqrt_pos.2 haa
  have hw : ∀ i, _ := fun i => (roe_waves hγ hl hr i).2
  simp only [h, sub_self] at hw
  have hd : 0 < (roeData γ l r).h0 - (roeData γ l r).ke := by rw [hh]; positivity
  have w0 := hw 0
  have w1 := hw 1
  have w2 := hw 2
  simp only [RoeData.wave, Matrix.cons_val] at w0 w1 w2
  have z : ∀ k, (roeData γ l r).speed k * (roeData γ l r).alpha k = 0 := by
    generalize h0 : (roeData γ l r).speed 0 * (roeData γ l r).alpha 0 = x at *
    have hxy : (roeData γ l r).speed 2 * (roeData γ l r).alpha 2 = x := by
      have : (roeData γ l r).a * ((roeData γ l r).speed 2 * (roeData γ l r).alpha 2 - x) = 0 := by
        linear_combination w1 - (roeData γ l r).u * w0
      rcases mul_eq_zero.1 this with h | h <;> linarith
    rw [hxy] at w0 w1 w2
    have hx : x = 0 := by
      have : 2 * x * ((roeData γ l r).h0 - (roeData γ l r).ke) = 0 := by
        linear_combination w2 - (roeData γ l r).ke * w0
      rcases mul_eq_zero.1 this with h | h <;> linarith
    have hy : (roeData γ l r).speed 1 * (roeData γ l r).alpha 1 = 0 := by
      rw [hx] at w0; linarith
    intro k
    fin_cases k
    · exact h0.trans hx
    · exact hy
    · exact hxy.trans hx
  rw [hf]
  refine congrArg some (funext fun i => ?_)
  have z' : ∀ k, (roeData γ l r).alpha k * |(roeData γ l r).speed k| = 0 := by
    intro k
    rcases mul_eq_zero.1 (z k) with h | h <;> simp [h]
  rw [e i, z', z', z', h]
  ring

/-- C88.  The flux does not depend on the direction of the axis. -/
theorem roe_mirror (hγ : 1 < γ) (hl : Good l) (hr : Good r) {f : Vec}
    (hf : roe γ (state γ l) (state γ r) = some f) :
    roe γ (mirrorState (state γ r)) (mirrorState (state γ l)) = some (mirrorFlux f) := by
  have hm : ∀ w, mirrorState (state γ w) = state γ (mirror w) := by
    intro w; ext i
    fin_cases i <;> simp [mirrorState, state, mirror, energy]
  obtain ⟨g, hg, e⟩ := roe_state hγ hl hr
  obtain rfl : f = g := by rw [hf] at hg; exact Option.some.inj hg
  have hml : Good (mirror l) := hl
  have hmr : Good (mirror r) := hr
  obtain ⟨g', hg', e'⟩ := roe_state hγ hmr hml
  rw [hm, hm, hg']
  refine congrArg some (funext fun i => ?_)
  have du : (roeData γ (mirror r) (mirror l)).u = -(roeData γ l r).u := by
    simp only [roeData, mirror]
    rw [add_comm (√r.rho)]; ring
  have dh : (roeData γ (mirror r) (mirror l)).h0 = (roeData γ l r).h0 := by
    simp only [roeData, mirror, enthalpy]
    rw [add_comm (√r.rho)]; ring
  have dk : (roeData γ (mirror r) (mirror l)).ke = (roeData γ l r).ke := by
    have h1 : (roeData γ (mirror r) (mirror l)).ke = (roeData γ (mirror r) (mirror l)).u *
      (roeData γ (mirror r) (mirror l)).u / 2 := rfl
    have h2 : (roeData γ l r).ke = (roeData γ l r).u * (roeData γ l r).u / 2 := rfl
    rw [h1, h2, du]; ring
  have daa : (roeData γ (mirror r) (mirror l)).aa = (roeData γ l r).aa := by
    have h1 : (roeData γ (mirror r) (mirror l)).aa = (γ - 1) * ((roeData γ (mirror r) (mirror l)).h0 -
      (roeData γ (mirror r) (mirror l)).ke) := rfl
    have h2 : (roeData γ l r).aa = (γ - 1) * ((roeData γ l r).h0 - (roeData γ l r).ke) := rfl
    rw [h1, h2, dh, dk]
  have da : (roeData γ (mirror r) (mirror l)).a = (roeData γ l r).a := by
    have h1 : (roeData γ (mirror r) (mirror l)).a = √(roeData γ (mirror r) (mirror l)).aa := rfl
    have h2 : (roeData γ l r).a = √(roeData γ l r).aa := rfl
    rw [h1, h2, daa]
  have drho : (roeData γ (mirror r) (mirror l)).rho = (roeData γ l r).rho := by
    simp only [roeData, mirror]; ring
  have a0 : (roeData γ (mirror r) (mirror l)).alpha 0 = -(roeData γ l r).alpha 2 := by
    have h1 : (roeData γ (mirror r) (mirror l)).alpha 0 = (l.p - r.p -
      (roeData γ (mirror r) (mirror l)).rho * (roeData γ (mirror r) (mirror l)).a * (-l.u - -r.u)) /
      (2 * (roeData γ (mirror r) (mirror l)).aa) := rfl
    have h2 : (roeData γ l r).alpha 2 = (r.p - l.p + (roeData γ l r).rho * (roeData γ l r).a *
      (r.u - l.u)) / (2 * (roeData γ l r).aa) := rfl
    rw [h1, h2, drho, da, daa]; ring
  have a2 : (roeData γ (mirror r) (mirror l)).alpha 2 = -(roeData γ l r).alpha 0 := by
    have h1 : (roeData γ (mirror r) (mirror l)).alpha 2 = (l.p - r.p +
      (roeData γ (mirror r) (mirror l)).rho * (roeData γ (mirror r) (mirror l)).a * (-l.u - -r.u)) /
      (2 * (roeData γ (mirror r) (mirror l)).aa) := rfl
    have h2 : (roeData γ l r).alpha 0 = (r.p - l.p - (roeData γ l r).rho * (roeData γ l r).a *
      (r.u - l.u)) / (2 * (roeData γ l r).aa) := rfl
    rw [h1, h2, drho, da, daa]; ring
  have a1 : (roeData γ (mirror r) (mirror l)).alpha 1 = -(roeData γ l r).alpha 1 := by
    have h1 : (roeData γ (mirror r) (mirror l)).alpha 1 = (l.rho - r.rho) - (l.p - r.p) /
      (roeData γ (mirror r) (mirror l)).aa := rfl
    have h2 : (roeData γ l r).alpha 1 = (r.rho - l.rho) - (r.p - l.p) / (roeData γ l r).aa := rfl
    rw [h1, h2, daa]; ring
  have s0 : |(roeData γ (mirror r) (mirror l)).speed 0| = |(roeData γ l r).speed 2| := by
    have h1 : (roeData γ (mirror r) (mirror l)).speed 0 = (roeData γ (mirror r) (mirror l)).u -
      (roeData γ (mirror r) (mirror l)).a := rfl
    have h2 : (roeData γ l r).speed 2 = (roeData γ l r).u + (roeData γ l r).a := rfl
    rw [h1, h2, du, da, ← abs_neg]; congr 1; ring
  have s1 : |(roeData γ (mirror r) (mirror l)).speed 1| = |(roeData γ l r).speed 1| := by
    have h1 : (roeData γ (mirror r) (mirror l)).speed 1 = (roeData γ (mirror r) (mirror l)).u := rfl
    have h2 : (roeData γ l r).speed 1 = (roeData γ l r).u := rfl
    rw [h1, h2, du, abs_neg]
  have s2 : |(roeData γ (mirror r) (mirror l)).speed 2| = |(roeData γ l r).speed 0| := by
    have h1 : (roeData γ (mirror r) (mirror l)).speed 2 = (roeData γ (mirror r) (mirror l)).u +
      (roeData γ (mirror r) (mirror l)).a := rfl
    have h2 : (roeData γ l r).speed 0 = (roeData γ l r).u - (roeData γ l r).a := rfl
    rw [h1, h2, du, da, ← abs_neg]; congr 1; ring
  rw [e' i, s0, s1, s2, a0, a1, a2]
  fin_cases i <;>
    simp only [RoeData.wave, du, da, dh, dk, mirrorFlux, e, Fin.zero_eta,
      Fin.mk_one, Fin.reduceFinMk, Fin.isValue, Matrix.cons_val] <;>
    simp only [physFlux, mirror, energy, Matrix.cons_val] <;> ring

end roe

section lax
variable {γ : ℝ} {l r : Prim}

theorem lax_state (hγ : 1 < γ) (hl : Good l) (hr : Good r) :
    ∃ f, laxFriedrichs γ (state γ l) (state γ r) = some f ∧ ∀ i, f i =
      (physFlux γ l i + physFlux γ r i) / 2 -
        max (|l.u| + sound γ l) (|r.u| + sound γ r) / 2 * (state γ r i - state γ l i) := by
  rw [laxFriedrichs, flux_state hγ hl.1 hl.2.le, flux_state hγ hr.1 hr.2.le, eigvals_state hγ hl,
    eigvals_state hγ hr]
  simp only [Option.bind_some, Option.map_some]
  refine ⟨_, rfl, fun i => ?_⟩
  have key : ∀ u a : ℝ, 0 < a → max |u - a| |u + a| = |u| + a := by
    intro u a ha
    rcases le_total 0 u with hu | hu
    · rw [abs_of_nonneg hu, abs_of_nonneg (by linarith : 0 ≤ u + a)]
      refine max_eq_right ?_
      rw [abs_le]; constructor <;> linarith
    · rw [abs_of_nonpos hu, abs_of_nonpos (by linarith : u - a ≤ 0), max_eq_left]
      · ring
      · rw [abs_le]; constructor <;> linarith
  simp only [Matrix.cons_val]
  rw [max_assoc, key _ _ (sound_pos hγ hl), key _ _ (sound_pos hγ hr)]
  ring

/-- C89.  The Lax-Friedrichs flux exists and is consistent. -/
theorem lax_consistent (hγ : 1 < γ) (hl : Good l) :
    laxFriedrichs γ (state γ l) (state γ l) = some (physFlux γ l) := by
  obtain ⟨f, hf, e⟩ := lax_state hγ hl hl
  rw [hf]
  exact congrArg some (funext fun i => by rw [e i]; ring)

/-- C89.  The Lax-Friedrichs flux does not depend on the direction of the axis. -/
theorem lax_mirror (hγ : 1 < γ) (hl : Good l) (hr : Good r) {f : Vec}
    (hf : laxFriedrichs γ (state γ l) (state γ r) = some f) :
    laxFriedrichs γ (mirrorState (state γ r)) (mirrorState (state γ l)) = some (mirrorFlux f) := by
  have hm : ∀ w, mirrorState (state γ w) = state γ (mirror w) := by
    intro w; ext i
    fin_cases i <;> simp [mirrorState, state, mirror, energy]
  obtain ⟨g, hg, e⟩ := lax_state hγ hl hr
  obtain rfl : f = g := by rw [hf] at hg; exact Option.some.inj hg
  obtain ⟨g', hg', e'⟩ := lax_state hγ (l := mirror r) (r := mirror l) hr hl
  rw [hm, hm, hg']
  refine congrArg some (funext fun i => ?_)
  have hs : ∀ w, |(mirror w).u| + sound γ (mirror w) = |w.u| + sound γ w := by
    intro w; simp [mirror, sound]
  rw [e' i, hs, hs, max_comm]
  fin_cases i <;>
    simp only [mirrorFlux, e, Fin.zero_eta, Fin.mk_one, Fin.reduceFinMk, Fin.isValue,
      Matrix.cons_val] <;>
    simp only [physFlux, state, mirror, energy, Matrix.cons_val] <;> ring

/-- C89.  Positivity: one forward Euler step of a cell between two others with the Lax-Friedrichs
flux keeps density and pressure positive as long as no signal of the three crosses a cell. -/
theorem lax_positive (hγ : 1 < γ) {w0 w1 w2 : Prim} (h0 : Good w0) (h1 : Good w1) (h2 : Good w2)
    {ν : ℝ} (hν : 0 < ν) (c0 : ν * (|w0.u| + sound γ w0) ≤ 1) (c1 : ν * (|w1.u| + sound γ w1) ≤ 1)
    (c2 : ν * (|w2.u| + sound γ w2) ≤ 1) :
    ∃ f g w, laxFriedrichs γ (state γ w0) (state γ w1) = some f ∧
      laxFriedrichs γ (state γ w1) (state γ w2) = some g ∧ Good w ∧
      toPrim γ (fun i => state γ w1 i - ν * (g i - f i)) = some w := by
  obtain ⟨f, hf, ef⟩ := lax_state hγ h0 h1
  obtain ⟨g, hg, eg⟩ := lax_state hγ h1 h2
  set m := max (|w0.u| + sound γ w0) (|w1.u| + sound γ w1) with hm
  set n := max (|w1.u| + sound γ w1) (|w2.u| + sound γ w2) with hn
  have hm0 : 0 < m := lt_max_of_lt_left (by have := sound_pos hγ h0; positivity)
  have hn0 : 0 < n := lt_max_of_lt_left (by have := sound_pos hγ h1; positivity)
  have hm1 : ν * m ≤ 1 := by
    rw [hm, mul_max_of_nonneg _ _ hν.le]; exact max_le c0 c1
  have hn1 : ν * n ≤ 1 := by
    rw [hn, mul_max_of_nonneg _ _ hν.le]; exact max_le c1 c2
  have p0 := (half_step hγ h0 (m := m) (s := 1) (le_max_left _ _) (Or.inl rfl)).smul
    (t := ν * m / 2) (by positivity)
  have p2 := (half_step hγ h2 (m := n) (s := -1) (le_max_right _ _) (Or.inr rfl)).smul
    (t := ν * n / 2) (by positivity)
  have hc : InCone (fun i => state γ w1 i - ν * (g i - f i)) := by
    have e : (fun i => state γ w1 i - ν * (g i - f i)) =
        ((ν * m / 2) • (state γ w0 + (1 / m) • physFlux γ w0) +
          (ν * n / 2) • (state γ w2 + (-1 / n) • physFlux γ w2)) +
          (1 - (ν * m / 2 + ν * n / 2)) • state γ w1 := by
      funext i
      simp only [Pi.add_apply, Pi.smul_apply, smul_eq_mul, ef i, eg i]
      field_simp
      ring
    rw [e]
    rcases (show 0 ≤ 1 - (ν * m / 2 + ν * n / 2) by linarith).eq_or_lt with hz | hz
    · rw [← hz, zero_smul, add_zero]
      exact p0.add p2
    · exact (p0.add p2).add (((inCone_iff hγ _).2 ⟨w1, h1, rfl⟩).smul hz)
  obtain ⟨w, hw, e⟩ := (inCone_iff hγ _).1 hc
  exact ⟨f, g, w, hf, hg, hw, by rw [e]; exact toPrim_state hγ hw.1 hw.2.le⟩

/-- C89, refuted for the Lax-Friedrichs solver: no face can be solved with it, since the value on the
interface is asked for after the flux. -/
theorem lax_no_value : laxUpwindValue = none := rfl

end lax

/-! Concrete cases. -/

/-- Behind and in front of a shock of Mach number two that stands. -/
noncomputable def behind : Prim := ⟨1.4 * 8 / 3, 3 / 4, 4.5⟩
noncomputable def front : Prim := ⟨1.4, 2, 1⟩

theorem behind_good : Good behind := by constructor <;> norm_num [behind]
theorem front_good : Good front := by constructor <;> norm_num [front]

theorem shock_stands : physFlux 1.4 behind = physFlux 1.4 front := by
  ext i; fin_cases i <;> norm_num [physFlux, energy, behind, front]

/-- The shock is kept, as it should be; and so is the expansion shock, in which the gas passes from
high to low pressure and its entropy falls: the Roe flux has no entropy fix. -/
theorem roe_expansion_shock :
    roe 1.4 (state 1.4 front) (state 1.4 behind) = some (physFlux 1.4 front) ∧
    roe 1.4 (state 1.4 behind) (state 1.4 front) = some (physFlux 1.4 behind) ∧
    front.p < behind.p ∧ 0 < front.u ∧ 0 < behind.u :=
  ⟨roe_stationary (by norm_num) front_good behind_good shock_stands.symm,
    roe_stationary (by norm_num) behind_good front_good shock_stands,
    by norm_num [front, behind], by norm_num [front], by norm_num [behind]⟩

example : ∃ V, toChar 1.4 (state 1.4 ⟨1, 0, 1⟩) = some V ∧ fromChar 1.4 V ≠ some (state 1.4 ⟨1, 0, 1⟩) :=
  characteristics_lost (by norm_num) (by norm_num) ⟨by norm_num, by norm_num⟩ rfl

example : ∃ f, roe 1.4 (state 1.4 ⟨1, 0, 1⟩) (state 1.4 ⟨1 / 8, 0, 1 / 10⟩) = some f :=
  roe_defined (by norm_num) ⟨by norm_num, by norm_num⟩ ⟨by norm_num, by norm_num⟩

end MiniCFD.PyEuler
