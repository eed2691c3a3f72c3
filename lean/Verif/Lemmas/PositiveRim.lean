import Verif.Lemmas.PositiveVacuum
import Mathlib.Tactic.Linarith

/-! Walls and inlets. -/

namespace MiniCFD.Positive

open MiniCFD.Euler MiniCFD.Spec.Euler MiniCFD.Spec.Positive MiniCFD.Exact MiniCFD.Spec.Exact

variable {d : Nat}

/-- A wall, whatever the gas does in front of it. -/
theorem wall_cone {γ : ℝ} (hγ : 1 < γ) {F : Frame d} (h : Orthonormal F) {c : Tup d} (hc : Admissible γ c)  :
    Cone (Tup.sub (Tup.add (Tup.scale (γ * |velAlong (F 0) c|) c) (flux γ (F 0) c)) (solidWall γ F c)) := by
  unfold solidWall
  dsimp only
  refine holder_cone_global hγ h hc fun v => ?_
  set s := globalToNormal F (toPrim γ c) with hs
  have hu : velAlong (F 0) c = s.mom 0 := (mom_along hγ hc).symm
  have hpe : (toPrim γ c).energy = s.energy := rfl
  have hg : Good (P3.of s) := toPrim_admissible hγ hc
  have hK := across_nonneg v s
  rw [ell_sub, ell_add, ell_scale, ell_cons, ell_flux, hu, hpe]
  have e : ell v (⟨0, fun i => if i = 0 then s.energy else 0, 0⟩ : Tup d) = -(s.energy * v 0) := by
    simp [ell]
  have hL : s.energy / (γ - 1) ≤ L γ (v 0) (across v s) (P3.of s) := by
    simp only [L]
    have := mul_nonneg hg.1.le (add_nonneg (div_nonneg (mul_self_nonneg ((P3.of s).u - v 0)) two_pos.le) hK)
    simp only [P3.of] at *
    linarith
  rw [e]
  simp only [Q]
  have hg1 : 0 < γ - 1 := by linarith
  have hp : 0 < s.energy := hg.2
  have hue : (P3.of s).u = s.mom 0 := rfl
  have hpe' : (P3.of s).p = s.energy := rfl
  rw [hue, hpe']
  have ha := neg_abs_le (s.mom 0)
  have ha0 := abs_nonneg (s.mom 0)
  have h2 : 0 ≤ γ * |s.mom 0| + s.mom 0 := by nlinarith
  have h3 := mul_le_mul_of_nonneg_left hL h2
  have h4 : 0 ≤ (γ * |s.mom 0| + s.mom 0) * (s.energy / (γ - 1)) + s.energy * s.mom 0 := by
    have e2 : (γ * |s.mom 0| + s.mom 0) * (s.energy / (γ - 1)) + s.energy * s.mom 0 =
        γ * s.energy / (γ - 1) * (|s.mom 0| + s.mom 0) := by field_simp; ring
    rw [e2]
    exact mul_nonneg (div_pos (mul_pos (by linarith) hp) hg1).le (by linarith)
  linarith

/-- A given state which comes in at least as fast as sound. -/
theorem inlet_cone {γ : ℝ} (hγ : 1 < γ) {F : Frame d} (h : Orthonormal F) {b c : Tup d} (hb : Admissible γ b)
    (hc : Admissible γ c) (hin : velAlong (F 0) b ≤ -sound γ b)  :
    Cone (Tup.sub (Tup.add (Tup.scale (|velAlong (F 0) c| + sound γ c) c) (flux γ (F 0) c)) (supersonicInlet γ F b)) := by
  unfold supersonicInlet fluxOfPrim
  refine holder_cone_global hγ h hc fun v => ?_
  obtain ⟨gc, uc, cc⟩ := seen_spec hγ (F := F) hc
  obtain ⟨gb, ub, cb⟩ := seen_spec hγ (F := F) hb
  rw [ell_sub, ell_add, ell_scale, ell_cons, ell_flux, ell_flux]
  have k1 := leave hγ gc (v := v 0) (across_nonneg v (globalToNormal F (toPrim γ c)))
    (α := |velAlong (F 0) c| + sound γ c) (by rw [uc, cc]; have := neg_abs_le (velAlong (F 0) c); linarith)
  have k2 := enter hγ gb (v := v 0) (α := 0) (across_nonneg v (globalToNormal F (toPrim γ b))) (by rw [ub, cb]; linarith)
  unfold seen at k1 k2
  linarith

/-! ### Calls of the exact solver -/

theorem call_keeps {γ : ℝ} (hγ : 1 < γ) (h3 : γ ≤ 3) {F : Frame d} (h : Orthonormal F) {left right : Tup d}
    (hl : Admissible γ left) (hr : Admissible γ right)
    (hv : velAlong (F 0) right - velAlong (F 0) left < 2 / (γ - 1) * (sound γ left + sound γ right)) {P : ℝ} (hP : 0 ≤ P)
    (hP' : 0 ≤ pressureFn γ (seen γ F left) (seen γ F right) P) {α : ℝ} (ha : reach γ P (F 0) left ≤ α)
    (hb : reach γ P (F 0) right ≤ α) {fuel : Nat} {s u : ℝ} {f : Tup d}
    (e : rotatedCall fuel γ F s left right = some (f, u)) : Keeps γ α (F 0) left right f := by
  obtain ⟨p, p1, p2, rfl⟩ := call_pressure hγ hl hr hv e
  have hpP : p ≤ P := by
    by_contra hc
    push Not at hc
    have := pressureFn_strictMono hγ (seen_spec hγ (F := F) hl).1 (seen_spec hγ (F := F) hr).1
      (show P ∈ Set.Ici (0 : ℝ) from hP) (show p ∈ Set.Ici (0 : ℝ) from p1.le) hc
    linarith
  refine exact_keeps hγ h3 h hl hr p1 p2 (le_trans ?_ ha) (le_trans ?_ hb)
  · have := acoustic_mono hγ hl hpP
    unfold reach
    linarith
  · have := acoustic_mono hγ hr hpP
    unfold reach
    linarith

theorem impact_pressure {γ : ℝ} (hγ : 1 < γ) {F : Frame d} {left right : Tup d} (hl : Admissible γ left)
    (hr : Admissible γ right) : 0 ≤ impact γ (F 0) left right ∧
      0 ≤ pressureFn γ (seen γ F left) (seen γ F right) (impact γ (F 0) left right) := by
  obtain ⟨gl, ul, -⟩ := seen_spec hγ (F := F) hl
  obtain ⟨gr, ur, -⟩ := seen_spec hγ (F := F) hr
  have hb := impact_bound hγ gl gr
  have ei : 2 * (seen γ F left).p + 2 * (seen γ F right).p +
      4 * ((seen γ F left).rho * γ) * |(seen γ F left).u - (seen γ F right).u| ^ 2 = impact γ (F 0) left right := by
    rw [ul, ur, sq_abs]
    unfold seen impact
    rw [toPrim_physical hγ (physical_of_admissible hl), toPrim_physical hγ (physical_of_admissible hr)]
    simp only [P3.of, globalToNormal]
    ring
  rw [ei] at hb
  exact hb

end MiniCFD.Positive
