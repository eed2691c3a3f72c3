import Verif.Lemmas.PositiveWaves

/-! The exact solver in the axes of a face: the flux. -/

namespace MiniCFD.Positive

open MiniCFD.Euler MiniCFD.Spec.Euler MiniCFD.Spec.Positive MiniCFD.Exact MiniCFD.Spec.Exact

/-- What is asked of the state at the face. -/
def Both (γ α v K K' : ℝ) (Kw : ℝ) (l r w : P3) : Prop :=
  Q γ v Kw w ≤ α * L γ v K l + Q γ v K l ∧ 0 ≤ α * L γ v K' r - Q γ v K' r + Q γ v Kw w

/-- The left wave. -/
theorem code1_both {γ : ℝ} (hγ : 1 < γ) (h3 : γ ≤ 3) {l r : P3} (hl : Good l) (hr : Good r) {v K K' p α : ℝ} (hK : 0 ≤ K)
    (hK' : 0 ≤ K') (hp : 0 < p) (hf : pressureFn γ l r p ≤ 0) (hu : 0 ≤ starSpeed γ l r p) (h0 : 0 ≤ α)
    (ha : front γ p l - l.u ≤ α) (hb : front γ p r + r.u ≤ α) :
    Both γ α v K K' K l r (code1 γ l ⟨0, starSpeed γ l r p, p⟩) := by
  have hfar := far hγ hr (v := v) hK' hp hb
  have hL := L_nonneg hγ hl (v := v) hK
  have hsup : 0 ≤ α * L γ v K' r - Q γ v K' r := by
    have h1 := front_ge hγ hr p
    have h2 := c_pos hγ hr
    exact sharer_cone hγ hr hK' (by linarith) (fast hγ hr (by linarith))
  obtain ⟨η, hη, hul, hur⟩ : ∃ η, 0 ≤ η ∧ starSpeed γ l r p + η = l.u - speedChange γ l p ∧
      starSpeed γ l r p - η = r.u + speedChange γ r p := by
    refine ⟨-pressureFn γ l r p / 2, by linarith, ?_, ?_⟩ <;> simp only [pressureFn, starSpeed] <;> ring
  generalize starSpeed γ l r p = u at *
  rw [← hur] at hfar
  have hαl := mul_nonneg h0 hL
  -- the far side, for a state of the code's velocity and pressure
  have hstar : ∀ ρ, 0 < ρ → 0 ≤ α * L γ v K' r - Q γ v K' r + Q γ v K ⟨ρ, u, p⟩ := by
    intro ρ hρ
    have h1 := mul_nonneg hu (L_nonneg hγ (show Good (⟨ρ, u, p⟩ : P3) from ⟨hρ, hp⟩) (v := v) hK)
    have h2 := mul_nonneg hp.le hη
    have h4 : Q γ v K ⟨ρ, u, p⟩ = u * L γ v K ⟨ρ, u, p⟩ + p * (u - v) := rfl
    rw [h4]
    linarith
  unfold code1
  by_cases hs : p ≥ l.p
  · rw [if_pos hs]
    rw [front_shock hγ hl hs] at ha
    rw [speedChange_eq hl, if_pos hs] at hul
    unfold nearShock1
    by_cases hS : shockSpeed l ⟨0, u, p⟩ < 0
    · rw [if_pos hS]
      obtain ⟨h1, h2⟩ := shock_star hγ hl (v := v) hK hs hu hη hul ha hS
      exact ⟨h2, hstar _ h1⟩
    · rw [if_neg hS]
      refine ⟨by linarith, ?_⟩
      push Not at hS
      have hm := massFlow_pos hγ hl hp
      have hphi0 : 0 ≤ phi γ l p := div_nonneg (by linarith) hm.le
      have hD : 0 ≤ l.u - u := by linarith
      have hulpos : 0 ≤ l.u := by linarith
      -- the jump of the pressure is small
      have hsmall : p - l.p ≤ l.rho * l.u * (l.u - u) := by
        by_cases hd : (u - l.u) * l.rho = 0
        · have hd' : u - l.u = 0 := by
            rcases mul_eq_zero.1 hd with h | h
            · exact h
            · exact absurd h hl.1.ne'
          have h1 : phi γ l p = 0 := by linarith
          have h2 : phi γ l p * massFlow γ l p = p - l.p := div_mul_cancel₀ _ hm.ne'
          rw [h1, zero_mul] at h2
          rw [← h2]
          exact mul_nonneg (mul_nonneg hl.1.le hulpos) hD
        · have hSe : shockSpeed l ⟨0, u, p⟩ = l.u + (p - l.p) / ((u - l.u) * l.rho) := by
            unfold shockSpeed; dsimp only; rw [if_pos hd]
          rw [hSe] at hS
          have hne : u - l.u ≠ 0 := fun h => hd (by rw [h, zero_mul])
          have hDpos : 0 < l.u - u := lt_of_le_of_ne hD (fun h => hne (by linarith))
          have h1 : 0 ≤ (l.u + (p - l.p) / ((u - l.u) * l.rho)) * (l.rho * (l.u - u)) :=
            mul_nonneg hS (mul_pos hl.1 hDpos).le
          have h2 : (l.u + (p - l.p) / ((u - l.u) * l.rho)) * (l.rho * (l.u - u)) =
              l.rho * l.u * (l.u - u) - (p - l.p) := by
            have := hl.1.ne'
            field_simp
            ring
          linarith
      have hg : 0 < γ - 1 := by linarith
      have e : Q γ v K l - p * (u - η - v) = l.u * (l.p / (γ - 1)) + l.rho * l.u * K + l.p * (l.u - u + η) +
          (l.rho * l.u * ((l.u - v) * (l.u - v)) / 2 - (p - l.p) * (l.u - v) + (p - l.p) * (l.u - u + η)) := by
        simp only [Q, L]; ring
      have h1 : 0 ≤ l.u * (l.p / (γ - 1)) := mul_nonneg hulpos (div_pos hl.2 hg).le
      have h2 : 0 ≤ l.rho * l.u * K := mul_nonneg (mul_nonneg hl.1.le hulpos) hK
      have h4 : 0 ≤ l.p * (l.u - u + η) := mul_nonneg hl.2.le (by linarith)
      have h5 : 0 ≤ l.rho * l.u * ((l.u - v) * (l.u - v)) / 2 - (p - l.p) * (l.u - v) + (p - l.p) * (l.u - u + η) := by
        have hΔ : 0 ≤ p - l.p := by linarith
        generalize p - l.p = Δ at *
        generalize l.u - v = x
        have h6 : Δ * (l.u - u) ≤ Δ * (l.u - u + η) := mul_le_mul_of_nonneg_left (by linarith) hΔ
        generalize l.u - u = D at *
        have hk : 0 ≤ l.rho * l.u := mul_nonneg hl.1.le hulpos
        generalize l.rho * l.u = k at *
        rcases eq_or_lt_of_le hk with h | h
        · rw [← h, zero_mul] at hsmall
          have : Δ = 0 := le_antisymm hsmall hΔ
          rw [this, ← h]; simp
        · have h7 : 0 ≤ k * (k * (x * x) / 2 - Δ * x + Δ * D) := by
            nlinarith [mul_self_nonneg (k * x - Δ), mul_le_mul_of_nonneg_left hsmall hΔ]
          have := nonneg_of_mul_nonneg_right h7 h
          linarith
      linarith
  · rw [if_neg hs]
    push Not at hs
    have hs' : p ≤ l.p := le_of_lt hs
    rw [speedChange_eq hl, if_neg (not_le.2 hs)] at hul
    have hc := c_pos hγ hl
    have ha' : c γ l - l.u ≤ α := (sub_le_sub_right (front_ge hγ hl p) _).trans ha
    have hsf := soundFan_pos hγ hl hp
    have hpsi := psi_eq hγ hl p
    have hg : γ - 1 ≠ 0 := by linarith
    have hafter : c γ l + (γ - 1) / 2 * (l.u - u) = soundFan γ l p + (γ - 1) / 2 * η := by
      have h1 : l.u - u = psi γ l p + η := by linarith
      rw [h1, hpsi]
      field_simp
      ring
    unfold nearExpansion1
    simp only [sound3_eq hl]
    rw [hafter]
    by_cases hb1 : u - (soundFan γ l p + (γ - 1) / 2 * η) < 0
    · rw [if_pos hb1]
      have hpos : 0 < soundFan γ l p + (γ - 1) / 2 * η := by linarith
      refine ⟨?_, hstar _ (div_pos (mul_pos (by linarith) hp) (mul_pos hpos hpos))⟩
      have h1 := near_fan hγ hl h3 (v := v) hK hp hs' h0 ha'
      have h2 := expansion_star hγ (v := v) hK hp hsf hη hu (by linarith)
        (le_max_left (soundFan γ l p) (l.u - psi γ l p)) (by rw [hul]; exact le_max_right _ _)
      refine h2.trans ?_
      rw [hul]
      exact h1
    · rw [if_neg hb1]
      push Not at hb1
      by_cases hb2 : l.u - c γ l > 0
      · rw [if_pos hb2]
        refine ⟨by linarith, ?_⟩
        have := Q_nonneg hγ hl (v := v) hK (by linarith) (fast hγ hl (by linarith))
        linarith
      · rw [if_neg hb2]
        push Not at hb2
        have hJ : 0 < l.u + 2 / (γ - 1) * c γ l := by
          have h1 : l.u + 2 / (γ - 1) * c γ l = (u + η) + 2 / (γ - 1) * soundFan γ l p := by
            rw [hul, hpsi]; ring
          rw [h1]
          have : 0 < 2 / (γ - 1) * soundFan γ l p := mul_pos (div_pos two_pos (by linarith)) hsf
          linarith
        obtain ⟨e1, e2⟩ := fan_sonic hγ hl hJ
        rw [e1]
        have hQ : Q γ v K (fan γ l 0) = pass γ v K l 0 := by rw [pass_Q hγ hl, zero_mul, add_zero]
        constructor
        · rw [hQ]
          exact (pass_anti hγ hl hK hb2 e2).trans (pass_begin hγ hl hK ha')
        · have hgood := fan_good hγ hl e2
          have hu' : (fan γ l 0).u = fanA γ l 0 := by simp [fan]
          have := Q_nonneg hγ hgood (v := v) hK (by rw [hu']; exact e2.le) (by
            rw [hu']
            simp only [fan]
            have : γ ≠ 0 := by linarith
            rw [mul_div_cancel₀ _ this])
          linarith

/-- The right wave. -/
theorem code3_both {γ : ℝ} (hγ : 1 < γ) (h3 : γ ≤ 3) {l r : P3} (hl : Good l) (hr : Good r) {v K K' p α : ℝ} (hK : 0 ≤ K)
    (hK' : 0 ≤ K') (hp : 0 < p) (hf : pressureFn γ l r p ≤ 0) (hu : starSpeed γ l r p ≤ 0) (h0 : 0 ≤ α)
    (ha : front γ p l - l.u ≤ α) (hb : front γ p r + r.u ≤ α) :
    Both γ α v K K' K' l r (code3 γ r ⟨0, starSpeed γ l r p, p⟩) := by
  have hfl : front γ p (mir l) = front γ p l := rfl
  have hfr : front γ p (mir r) = front γ p r := rfl
  have hul : (mir l).u = -l.u := rfl
  have hur : (mir r).u = -r.u := rfl
  have key := code1_both hγ h3 (good_flip.2 hr) (good_flip.2 hl) (v := -v) hK' hK hp
    (by rw [pressureFn_flip]; exact hf) (by rw [starSpeed_flip]; linarith) h0 (by rw [hfr, hur]; linarith)
    (by rw [hfl, hul]; linarith)
  rw [starSpeed_flip] at key
  have e : code1 γ (mir r) ⟨0, -starSpeed γ l r p, p⟩ = mir (code3 γ r ⟨0, starSpeed γ l r p, p⟩) :=
    code_flip γ r ⟨0, starSpeed γ l r p, p⟩
  rw [e] at key
  obtain ⟨k1, k2⟩ := key
  rw [Q_mir, Q_mir, L_mir] at k1
  rw [Q_mir, Q_mir, L_mir] at k2
  constructor <;> linarith

variable {d : Nat}

theorem across_left (v : Fin (d + 1) → ℝ) (w : P3) {u : ℝ} (hu : 0 < u) (l r : Tup d) :
    across v (setPassive w u l r) = across v l := by
  unfold across setPassive
  simp [hu, Fin.succ_ne_zero]

theorem across_right (v : Fin (d + 1) → ℝ) (w : P3) {u : ℝ} (hu : ¬ 0 < u) (l r : Tup d) :
    across v (setPassive w u l r) = across v r := by
  unfold across setPassive
  simp [hu, Fin.succ_ne_zero]

theorem of_setPassive (w : P3) (u : ℝ) (l r : Tup d) : P3.of (setPassive w u l r) = w := by
  simp [P3.of, setPassive]

/-- The exact solver in the axes of the face. -/
theorem exact_cone {γ : ℝ} (hγ : 1 < γ) (h3 : γ ≤ 3) {l r : Tup d} (hl : AdmissiblePrim l) (hr : AdmissiblePrim r) {p α : ℝ}
    (hp : 0 < p) (hf : pressureFn γ (P3.of l) (P3.of r) p ≤ 0) (h0 : 0 ≤ α)
    (ha : front γ p (P3.of l) - l.mom 0 ≤ α) (hb : front γ p (P3.of r) + r.mom 0 ≤ α) :
    Cone (Tup.sub (Tup.add (Tup.scale α (toCons γ l)) (primFlux γ l)) (fluxAt γ p l r)) ∧
    Cone (Tup.add (Tup.sub (Tup.scale α (toCons γ r)) (primFlux γ r)) (fluxAt γ p l r)) := by
  have gl : Good (P3.of l) := hl
  have gr : Good (P3.of r) := hr
  have key : ∀ v, 0 ≤ ell v (Tup.sub (Tup.add (Tup.scale α (toCons γ l)) (primFlux γ l)) (fluxAt γ p l r)) ∧
      0 ≤ ell v (Tup.add (Tup.sub (Tup.scale α (toCons γ r)) (primFlux γ r)) (fluxAt γ p l r)) := by
    intro v
    have hK := across_nonneg v l
    have hK' := across_nonneg v r
    unfold fluxAt
    simp only [ell_sub, ell_add, ell_scale, ell_cons, ell_flux, of_setPassive]
    rw [ordinary_eq]
    dsimp only
    by_cases hu : 0 < starSpeed γ (P3.of l) (P3.of r) p
    · rw [if_pos hu, across_left v _ hu]
      obtain ⟨k1, k2⟩ := code1_both hγ h3 gl gr (v := v 0) hK hK' hp hf hu.le h0 ha hb
      exact ⟨by linarith, k2⟩
    · rw [if_neg hu, across_right v _ hu]
      obtain ⟨k1, k2⟩ := code3_both hγ h3 gl gr (v := v 0) hK hK' hp hf (not_lt.1 hu) h0 ha hb
      exact ⟨by linarith, k2⟩
  exact ⟨fun v => (key v).1, fun v => (key v).2⟩

end MiniCFD.Positive
