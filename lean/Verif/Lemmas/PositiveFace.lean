import Verif.Lemmas.PositiveSolver

/-! From the axes of a face to global axes. -/

namespace MiniCFD.Positive

open MiniCFD.Euler MiniCFD.Spec.Euler MiniCFD.Spec.Positive MiniCFD.Exact MiniCFD.Spec.Exact

variable {d : Nat}

theorem toCons_turn {F : Frame d} (h : Orthonormal F) (γ : ℝ) (s : Tup d) :
    toCons γ (globalToNormal F s) = globalToNormal F (toCons γ s) := by
  simp only [toCons, globalToNormal, dynamicPressure, sum_sq_frame h]
  congr 1
  funext i
  rw [Finset.sum_mul]
  exact Finset.sum_congr rfl fun j _ => by ring

theorem turn_cons {γ : ℝ} (hγ : 1 < γ) {F : Frame d} (h : Orthonormal F) {c : Tup d} (hc : Admissible γ c) :
    normalToGlobal F (toCons γ (globalToNormal F (toPrim γ c))) = c := by
  rw [toCons_turn h, normalToGlobal_globalToNormal h, toCons_toPrim hγ c (physical_of_admissible hc)]

theorem turn_flux {γ : ℝ} (hγ : 1 < γ) {F : Frame d} (h : Orthonormal F) {c : Tup d} (hc : Admissible γ c) :
    normalToGlobal F (primFlux γ (globalToNormal F (toPrim γ c))) = flux γ (F 0) c :=
  fluxOfPrim_physical hγ h (physical_of_admissible hc)

theorem Cone.turn {F : Frame d} (h : Orthonormal F) {a : Tup d} (ha : Cone a) : Cone (normalToGlobal F a) := fun v => by
  rw [ell_turn h]; exact ha _

theorem Cone.congr {a b : Tup d} (h : ∀ v, ell v a = ell v b) (ha : Cone a) : Cone b := fun v => by
  rw [← h]; exact ha v

/-- The cell from which the normal comes. -/
theorem holder_cone_global {γ : ℝ} (hγ : 1 < γ) {F : Frame d} (h : Orthonormal F) {c g : Tup d} (hc : Admissible γ c) {α : ℝ}
    (hg : Cone (Tup.sub (Tup.add (Tup.scale α (toCons γ (globalToNormal F (toPrim γ c))))
      (primFlux γ (globalToNormal F (toPrim γ c)))) g)) :
    Cone (Tup.sub (Tup.add (Tup.scale α c) (flux γ (F 0) c)) (normalToGlobal F g)) := by
  refine Cone.congr (fun v => ?_) (hg.turn h)
  conv_rhs => rw [ell_sub, ell_add, ell_scale, ← turn_flux hγ h hc]
  rw [ell_turn h, ell_sub, ell_add, ell_scale, ell_turn h, ell_turn h]
  conv_rhs => rw [← turn_cons hγ h hc]
  rw [ell_turn h, turn_cons hγ h hc]

theorem sharer_cone_global {γ : ℝ} (hγ : 1 < γ) {F : Frame d} (h : Orthonormal F) {c g : Tup d} (hc : Admissible γ c) {α : ℝ}
    (hg : Cone (Tup.add (Tup.sub (Tup.scale α (toCons γ (globalToNormal F (toPrim γ c))))
      (primFlux γ (globalToNormal F (toPrim γ c)))) g)) :
    Cone (Tup.add (Tup.sub (Tup.scale α c) (flux γ (F 0) c)) (normalToGlobal F g)) := by
  refine Cone.congr (fun v => ?_) (hg.turn h)
  conv_rhs => rw [ell_add, ell_sub, ell_scale, ← turn_flux hγ h hc]
  rw [ell_turn h, ell_add, ell_sub, ell_scale, ell_turn h, ell_turn h]
  conv_rhs => rw [← turn_cons hγ h hc]
  rw [ell_turn h, turn_cons hγ h hc]

theorem Tup.ext' {a b : Tup d} (h1 : a.mass = b.mass) (h2 : ∀ i, a.mom i = b.mom i) (h3 : a.energy = b.energy) : a = b :=
  Tup.ext h1 (_root_.funext h2) h3

theorem holder_admissible {γ : ℝ} (hγ : 1 < γ) {nu : Fin (d + 1) → ℝ} {c f : Tup d} (hc : Admissible γ c) {α θ : ℝ}
    (hθ : 0 ≤ θ) (hα : θ * α < 1) (hf : Cone (Tup.sub (Tup.add (Tup.scale α c) (flux γ nu c)) f)) :
    Admissible γ (holder γ θ nu f c) := by
  have e : holder γ θ nu f c = Tup.add (Tup.scale (1 - θ * α) c)
      (Tup.scale θ (Tup.sub (Tup.add (Tup.scale α c) (flux γ nu c)) f)) := by
    apply Tup.ext' <;> intros <;>
      simp only [holder, Tup.add, Tup.scale, Tup.sub, Pi.add_apply, Pi.sub_apply, Pi.smul_apply, smul_eq_mul] <;> ring
  rw [e]
  exact admissible_add hγ (admissible_scale hc (by linarith)) (hf.scale hθ)

theorem sharer_admissible {γ : ℝ} (hγ : 1 < γ) {nu : Fin (d + 1) → ℝ} {c f : Tup d} (hc : Admissible γ c) {α θ : ℝ}
    (hθ : 0 ≤ θ) (hα : θ * α < 1) (hf : Cone (Tup.add (Tup.sub (Tup.scale α c) (flux γ nu c)) f)) :
    Admissible γ (sharer γ θ nu f c) := by
  have e : sharer γ θ nu f c = Tup.add (Tup.scale (1 - θ * α) c)
      (Tup.scale θ (Tup.add (Tup.sub (Tup.scale α c) (flux γ nu c)) f)) := by
    apply Tup.ext' <;> intros <;>
      simp only [sharer, Tup.add, Tup.scale, Tup.sub, Pi.add_apply, Pi.sub_apply, Pi.smul_apply, smul_eq_mul] <;> ring
  rw [e]
  exact admissible_add hγ (admissible_scale hc (by linarith)) (hf.scale hθ)

theorem acoustic_nonneg (γ p : ℝ) (c : Tup d) : 0 ≤ acoustic γ p c := by
  unfold acoustic
  refine mul_nonneg (Real.sqrt_nonneg _) ?_
  split
  · norm_num
  · exact Real.sqrt_nonneg _

theorem reach_nonneg (γ p : ℝ) (nu : Fin (d + 1) → ℝ) (c : Tup d) : 0 ≤ reach γ p nu c :=
  add_nonneg (abs_nonneg _) (acoustic_nonneg γ p c)

theorem acoustic_mono {γ : ℝ} (hγ : 1 < γ) {c : Tup d} (hc : Admissible γ c) {p q : ℝ} (h : p ≤ q) :
    acoustic γ p c ≤ acoustic γ q c := by
  unfold acoustic
  refine mul_le_mul_of_nonneg_left ?_ (Real.sqrt_nonneg _)
  have hk : 0 < (γ + 1) / (2 * γ) := div_pos (by linarith) (by linarith)
  by_cases h1 : p ≤ pressure γ c
  · rw [if_pos h1]
    by_cases h2 : q ≤ pressure γ c
    · rw [if_pos h2]
    · rw [if_neg h2, Real.one_le_sqrt]
      have : 0 ≤ q / pressure γ c - 1 := by rw [sub_nonneg, le_div_iff₀ hc.2]; linarith
      have := mul_nonneg hk.le this
      linarith
  · rw [if_neg h1, if_neg (by linarith)]
    refine Real.sqrt_le_sqrt ?_
    have : p / pressure γ c ≤ q / pressure γ c := div_le_div_of_nonneg_right h hc.2.le
    have := mul_le_mul_of_nonneg_left (sub_le_sub_right this 1) hk.le
    linarith

theorem front_acoustic {γ : ℝ} (hγ : 1 < γ) {F : Frame d} {s : Tup d} (hs : Admissible γ s) (p : ℝ) :
    front γ p (P3.of (globalToNormal F (toPrim γ s))) = acoustic γ p s := by
  rw [← getQ_acoustic hγ p hs]
  have h1 : c γ (P3.of (globalToNormal F (toPrim γ s))) = sound γ s := (seen_spec hγ (F := F) hs).2.2
  rw [front, h1, toPrim_physical hγ (physical_of_admissible hs)]
  rfl

theorem mom_along {γ : ℝ} (hγ : 1 < γ) {F : Frame d} {s : Tup d} (hs : Admissible γ s) :
    (globalToNormal F (toPrim γ s)).mom 0 = velAlong (F 0) s := (seen_spec hγ (F := F) hs).2.1

theorem waves_global {γ : ℝ} (hγ : 1 < γ) {F : Frame d} {l r : Tup d} (hl : Admissible γ l) (hr : Admissible γ r) :
    waveLeft γ (globalToNormal F (toPrim γ l)) (globalToNormal F (toPrim γ r)) =
      velAlong (F 0) l - acoustic γ (pvrs γ (F 0) l r) l ∧
    waveRight γ (globalToNormal F (toPrim γ l)) (globalToNormal F (toPrim γ r)) =
      velAlong (F 0) r + acoustic γ (pvrs γ (F 0) l r) r :=
  ⟨sL_spec hγ (F := F) hl hr, sR_spec hγ (F := F) hl hr⟩

/-- What is asked of the flux through a face, before it is multiplied by the step. -/
def Keeps (γ α : ℝ) (nu : Fin (d + 1) → ℝ) (l r f : Tup d) : Prop :=
  Cone (Tup.sub (Tup.add (Tup.scale α l) (flux γ nu l)) f) ∧ Cone (Tup.add (Tup.sub (Tup.scale α r) (flux γ nu r)) f)

theorem hllc_keeps {γ : ℝ} (hγ : 1 < γ) {F : Frame d} (h : Orthonormal F) {left right : Tup d} (hl : Admissible γ left)
    (hr : Admissible γ right) {α : ℝ} (ha : reach γ (pvrs γ (F 0) left right) (F 0) left ≤ α)
    (hb : reach γ (pvrs γ (F 0) left right) (F 0) right ≤ α) :
    Keeps γ α (F 0) left right (upwind γ (hllc γ) F left right) := by
  have h0 := (reach_nonneg _ _ _ _).trans ha
  obtain ⟨e1, e2⟩ := waves_global hγ (F := F) hl hr
  have key := hllc_cone hγ (l := globalToNormal F (toPrim γ left)) (r := globalToNormal F (toPrim γ right))
    (toPrim_admissible hγ hl) (toPrim_admissible hγ hr) h0
    (by rw [e1]; have := neg_abs_le (velAlong (F 0) left); unfold reach at ha; linarith)
    (by rw [e2]; have := le_abs_self (velAlong (F 0) right); unfold reach at hb; linarith)
  exact ⟨holder_cone_global hγ h hl key.1, sharer_cone_global hγ h hr key.2⟩

theorem exact_keeps {γ : ℝ} (hγ : 1 < γ) (h3 : γ ≤ 3) {F : Frame d} (h : Orthonormal F) {left right : Tup d}
    (hl : Admissible γ left) (hr : Admissible γ right) {p : ℝ} (hp : 0 < p)
    (hf : pressureFn γ (seen γ F left) (seen γ F right) p ≤ 0) {α : ℝ} (ha : reach γ p (F 0) left ≤ α)
    (hb : reach γ p (F 0) right ≤ α) : Keeps γ α (F 0) left right (upwind γ (fluxAt γ p) F left right) := by
  have h0 := (reach_nonneg _ _ _ _).trans ha
  have key := exact_cone hγ h3 (l := globalToNormal F (toPrim γ left)) (r := globalToNormal F (toPrim γ right))
    (toPrim_admissible hγ hl) (toPrim_admissible hγ hr) hp hf h0
    (by rw [front_acoustic hγ hl, mom_along hγ hl]; have := neg_abs_le (velAlong (F 0) left); unfold reach at ha; linarith)
    (by rw [front_acoustic hγ hr, mom_along hγ hr]; have := le_abs_self (velAlong (F 0) right); unfold reach at hb; linarith)
  exact ⟨holder_cone_global hγ h hl key.1, sharer_cone_global hγ h hr key.2⟩

/-- What the code's pressure is below. -/
theorem call_pressure {γ : ℝ} (hγ : 1 < γ) {F : Frame d} {left right : Tup d}
    (hl : Admissible γ left) (hr : Admissible γ right)
    (hv : velAlong (F 0) right - velAlong (F 0) left < 2 / (γ - 1) * (sound γ left + sound γ right)) {fuel : Nat}
    {s u : ℝ} {f : Tup d} (e : rotatedCall fuel γ F s left right = some (f, u)) :
    ∃ p, 0 < p ∧ pressureFn γ (seen γ F left) (seen γ F right) p ≤ 0 ∧ f = upwind γ (fluxAt γ p) F left right := by
  obtain ⟨gl, ul, cl⟩ := seen_spec hγ (F := F) hl
  obtain ⟨gr, ur, cr⟩ := seen_spec hγ (F := F) hr
  have h0 : pressureFn γ (seen γ F left) (seen γ F right) 0 < 0 := by
    rw [vacuum_criterion hγ gl gr, ul, ur, cl, cr]; exact hv
  rcases ep : starPressure fuel γ (seen γ F left) (seen γ F right) with _ | p
  · exfalso
    unfold rotatedCall call axis at e
    simp only [if_pos (show (P3.of (globalToNormal F (toPrim γ left))).rho > 0 from gl.1),
      if_pos (show (P3.of (globalToNormal F (toPrim γ right))).rho > 0 from gr.1),
      if_pos (show pressureFn γ (P3.of (globalToNormal F (toPrim γ left)))
        (P3.of (globalToNormal F (toPrim γ right))) 0 < 0 from h0)] at e
    have ep' : starPressure fuel γ (P3.of (globalToNormal F (toPrim γ left)))
      (P3.of (globalToNormal F (toPrim γ right))) = none := ep
    rw [ep'] at e
    cases e
  · rw [rotatedCall_ordinary gl gr h0 ep s] at e
    obtain ⟨p1, -, p3⟩ := findRoot_spec hγ gl gr (by norm_num) gl.2 ep
    exact ⟨p, p1, p3, (congrArg Prod.fst (Option.some.inj e)).symm⟩

/-- A pressure which is not exceeded. -/
theorem impact_bound {γ : ℝ} (hγ : 1 < γ) {l r : P3} (hl : Good l) (hr : Good r) :
    0 ≤ 2 * l.p + 2 * r.p + 4 * (l.rho * γ) * |l.u - r.u| ^ 2 ∧
    0 ≤ pressureFn γ l r (2 * l.p + 2 * r.p + 4 * (l.rho * γ) * |l.u - r.u| ^ 2) := by
  have k1 := hl.2
  have k2 := hr.2
  have k3 : 0 ≤ 4 * (l.rho * γ) * |l.u - r.u| ^ 2 := by
    have := hl.1
    positivity
  refine ⟨by linarith, ?_⟩
  have h1 := speedChange_large hγ hl (abs_nonneg (l.u - r.u))
    (p := 2 * l.p + 2 * r.p + 4 * (l.rho * γ) * |l.u - r.u| ^ 2) (by linarith) (by linarith)
  have h2 := speedChange_large hγ hr (le_refl 0)
    (p := 2 * l.p + 2 * r.p + 4 * (l.rho * γ) * |l.u - r.u| ^ 2) (by linarith) (by
      simp only [ne_eq, OfNat.ofNat_ne_zero, not_false_eq_true, zero_pow, mul_zero]; linarith)
  unfold pressureFn
  have := le_abs_self (l.u - r.u)
  linarith

end MiniCFD.Positive
