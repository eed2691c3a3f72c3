import Verif.Lemmas.PositiveExact
import Verif.Props.Exact

/-! The exact solver in the axes of a face: both cells. -/

namespace MiniCFD.Positive

open MiniCFD.Euler MiniCFD.Spec.Euler MiniCFD.Spec.Positive MiniCFD.Exact MiniCFD.Spec.Exact

/-- The speed of the wave into the gas. -/
noncomputable def front (γ p : ℝ) (s : P3) : ℝ := c γ s * getQ γ p s.p

section

variable {γ : ℝ} (hγ : 1 < γ) {l : P3} (hl : Good l)
include hγ hl

theorem front_ge (p : ℝ) : c γ l ≤ front γ p l := by
  have := mul_le_mul_of_nonneg_left (getQ_ge hγ p hl.2) (c_pos hγ hl).le
  rwa [mul_one] at this

theorem front_shock {p : ℝ} (hp : l.p ≤ p) : front γ p l = massFlow γ l p / l.rho := by
  have hp0 : 0 < p := lt_of_lt_of_le hl.2 hp
  have hr := hl.1.ne'
  have hpp := hl.2.ne'
  have h4 : γ ≠ 0 := by linarith
  have hm := massFlow_pos hγ hl hp0
  have hm2 := massFlow_sq hγ hl hp0
  have hf : 0 ≤ front γ p l := (c_pos hγ hl).le.trans (front_ge hγ hl p)
  have hq : getQ γ p l.p * getQ γ p l.p = 1 + (γ + 1) / 2 * (p / l.p - 1) / γ := by
    unfold getQ
    split
    · have : p = l.p := le_antisymm (by assumption) hp
      rw [this, div_self hpp]; ring
    · refine Real.mul_self_sqrt ?_
      have : 0 ≤ p / l.p - 1 := by rw [sub_nonneg, le_div_iff₀ hl.2]; linarith
      have : 0 ≤ (γ + 1) / 2 * (p / l.p - 1) / γ := div_nonneg (mul_nonneg (by linarith) this) (by linarith)
      linarith
  refine (mul_self_inj hf (div_pos hm hl.1).le).1 ?_
  rw [front, mul_mul_mul_comm, c_sq hγ hl, hq, div_mul_div_comm, hm2]
  unfold bigP
  field_simp
  ring

/-- What goes through a wave which is not disturbed: shocks. -/
theorem near_shock {v K p α : ℝ} (hK : 0 ≤ K) (hp : l.p ≤ p) (ha : massFlow γ l p / l.rho - l.u ≤ α) :
    p * (l.u - phi γ l p - v) ≤ α * L γ v K l + Q γ v K l := by
  have hp0 : 0 < p := lt_of_lt_of_le hl.2 hp
  have hg : 0 < γ - 1 := by linarith
  have hr := hl.1.ne'
  have hm := massFlow_pos hγ hl hp0
  have hm2 := massFlow_sq hγ hl hp0
  have hL := L_nonneg hγ hl (v := v) hK
  set m := massFlow γ l p with hmdef
  have hphi : phi γ l p * m = p - l.p := div_mul_cancel₀ _ hm.ne'
  have hphi0 : 0 ≤ phi γ l p := div_nonneg (by linarith) hm.le
  set f := phi γ l p with hf
  set w := m / l.rho with hw
  have hwr : w * l.rho = m := div_mul_cancel₀ _ hr
  -- w - f ≥ 0
  have hwf : f ≤ w := by
    have h1 : f * m * l.rho ≤ w * m * l.rho := by
      rw [hphi, show w * m * l.rho = (w * l.rho) * m by ring, hwr, hm2]
      have : p - l.p ≤ bigP γ l p := by
        unfold bigP
        have h2 := hl.2
        nlinarith [mul_pos hg h2, mul_pos hg hp0]
      have := mul_le_mul_of_nonneg_left this hl.1.le
      linarith
    exact le_of_mul_le_mul_right (by nlinarith) (mul_pos hm hl.1)
  -- the jump of the energy
  have hE : w * l.p - (w - f) * p = - ((γ - 1) * (1 / 2 * (p + l.p) * f)) := by
    have h3 : l.rho * m * (w * (l.p - p) + f * p + (γ - 1) * (1 / 2 * (p + l.p) * f)) = 0 := by
      have h4 : l.rho * bigP γ l p = m * m := hm2.symm
      unfold bigP at h4
      have h5 : l.rho * m * (w * (l.p - p) + f * p + (γ - 1) * (1 / 2 * (p + l.p) * f)) =
          (w * l.rho) * m * (l.p - p) + (f * m) * (l.rho * ((γ + 1) / 2 * p + l.p * ((γ - 1) / 2))) := by ring
      rw [h5, hwr, hphi, h4]
      ring
    rcases mul_eq_zero.1 h3 with h4 | h4
    · exact absurd h4 (mul_pos hl.1 hm).ne'
    · linear_combination h4
  have e : α * L γ v K l + Q γ v K l - p * (l.u - f - v) =
      (α + l.u - w) * L γ v K l + (w - f) * (p / (γ - 1)) + m * ((l.u - f - v) * (l.u - f - v) / 2 + K) := by
    have h6 : w * (l.p / (γ - 1)) = (w - f) * (p / (γ - 1)) - 1 / 2 * (p + l.p) * f := by
      have h7 : γ - 1 ≠ 0 := hg.ne'
      have h8 : w * (l.p / (γ - 1)) = w * l.p / (γ - 1) := by ring
      have h9 : w * l.p = (w - f) * p - (γ - 1) * (1 / 2 * (p + l.p) * f) := by linear_combination hE
      rw [h8, h9]
      field_simp
    simp only [Q, L]
    linear_combination h6 + ((l.u - v) * (l.u - v) / 2 + K) * hwr + (l.u - v - f / 2) * hphi
  have h8 : 0 ≤ (α + l.u - w) * L γ v K l := mul_nonneg (by linarith) hL
  have h9 : 0 ≤ (w - f) * (p / (γ - 1)) := mul_nonneg (by linarith) (div_pos hp0 hg).le
  have h10 : 0 ≤ m * ((l.u - f - v) * (l.u - f - v) / 2 + K) :=
    mul_nonneg hm.le (add_nonneg (div_nonneg (mul_self_nonneg _) two_pos.le) hK)
  linarith

/-- The head of a fan is passed. -/
theorem pass_begin {v K α : ℝ} (hK : 0 ≤ K) (ha : c γ l - l.u ≤ α) :
    pass γ v K l (l.u - c γ l) ≤ α * L γ v K l + Q γ v K l := by
  obtain ⟨e1, e2⟩ := fan_begin hγ hl
  unfold pass
  rw [e1, e2]
  have := mul_nonneg (by linarith : 0 ≤ α + l.u - c γ l) (L_nonneg hγ hl (v := v) hK)
  simp only [Q]
  linarith

omit hl in
theorem behind_good {p : ℝ} (hl : Good l) (hp : 0 < p) : Good (behind γ l p) := by
  have := soundFan_pos hγ hl hp
  exact ⟨div_pos (mul_pos (by linarith) hp) (mul_pos this this), hp⟩

theorem psi_eq (p : ℝ) : psi γ l p = 2 / (γ - 1) * (soundFan γ l p - c γ l) := by
  unfold psi soundFan; ring

/-- The tail of a fan is on the right of its head. -/
theorem head_tail {p : ℝ} (hp0 : 0 < p) (hp : p ≤ l.p) : l.u - c γ l ≤ l.u - psi γ l p - soundFan γ l p := by
  have h1 : soundFan γ l p ≤ c γ l := by
    unfold soundFan
    have hx := div_pos hp0 hl.2
    have : (p / l.p) ^ ((γ - 1) / 2 / γ) ≤ 1 :=
      Real.rpow_le_one hx.le ((div_le_one hl.2).2 hp) (div_nonneg (by linarith) (by linarith))
    have := mul_le_mul_of_nonneg_left this (c_pos hγ hl).le
    linarith
  have h2 : psi γ l p ≤ 0 := by
    rw [psi_eq hγ hl]
    exact mul_nonpos_of_nonneg_of_nonpos (div_nonneg two_pos.le (by linarith)) (by linarith)
  linarith

/-- What goes through a fan. -/
theorem near_fan (h3 : γ ≤ 3) {v K p α : ℝ} (hK : 0 ≤ K) (hp0 : 0 < p) (hp : p ≤ l.p) (h0 : 0 ≤ α) (ha : c γ l - l.u ≤ α) :
    max (soundFan γ l p) (l.u - psi γ l p) * L γ v K (behind γ l p) + p * (l.u - psi γ l p - v) ≤
      α * L γ v K l + Q γ v K l := by
  obtain ⟨e1, e2⟩ := fan_behind hγ hl hp0
  have hs := soundFan_pos hγ hl hp0
  have ht := head_tail hγ hl hp0 hp
  have hb := pass_begin hγ hl (v := v) hK ha
  have hpos : 0 < fanA γ l (l.u - psi γ l p - soundFan γ l p) := by rw [e2]; exact hs
  have hY : pass γ v K l (l.u - psi γ l p - soundFan γ l p) =
      soundFan γ l p * L γ v K (behind γ l p) + p * (l.u - psi γ l p - v) := by
    unfold pass; rw [e1, e2]; rfl
  have hQ : Q γ v K (fan γ l (l.u - psi γ l p - soundFan γ l p)) =
      (l.u - psi γ l p) * L γ v K (behind γ l p) + p * (l.u - psi γ l p - v) := by
    rw [e1]; rfl
  rcases le_total (l.u - psi γ l p) (soundFan γ l p) with h | h
  · rw [max_eq_left h, ← hY]
    exact (pass_anti hγ hl hK ht hpos).trans hb
  · rw [max_eq_right h, ← hQ]
    rcases le_total (l.u - c γ l) 0 with h1 | h1
    · have hpos0 : 0 < fanA γ l 0 := lt_of_lt_of_le hpos (fanA_mono hγ (by linarith))
      refine (Q_anti hγ hl h3 hK le_rfl (by linarith) hpos).trans ?_
      rw [pass_Q hγ hl, zero_mul, add_zero]
      exact (pass_anti hγ hl hK h1 hpos0).trans hb
    · refine (Q_anti hγ hl h3 hK h1 ht hpos).trans ?_
      rw [(fan_begin hγ hl).1]
      have := mul_nonneg h0 (L_nonneg hγ hl (v := v) hK)
      linarith

/-- What goes through a wave, at least. -/
theorem near {v K p α : ℝ} (hK : 0 ≤ K) (hp0 : 0 < p) (ha : front γ p l - l.u ≤ α) :
    p * (l.u - speedChange γ l p - v) ≤ α * L γ v K l + Q γ v K l := by
  rw [speedChange_eq hl]
  by_cases hp : l.p ≤ p
  · rw [if_pos hp]
    rw [front_shock hγ hl hp] at ha
    exact near_shock hγ hl hK hp ha
  · rw [if_neg hp]
    push Not at hp
    obtain ⟨e1, e2⟩ := fan_behind hγ hl hp0
    have hs := soundFan_pos hγ hl hp0
    have ht := head_tail hγ hl hp0 hp.le
    have hb := pass_begin hγ hl (v := v) hK ((sub_le_sub_right (front_ge hγ hl p) _).trans ha)
    have hpos : 0 < fanA γ l (l.u - psi γ l p - soundFan γ l p) := by rw [e2]; exact hs
    have hY : pass γ v K l (l.u - psi γ l p - soundFan γ l p) =
        soundFan γ l p * L γ v K (behind γ l p) + p * (l.u - psi γ l p - v) := by
      unfold pass; rw [e1, e2]; rfl
    have := (pass_anti hγ hl hK ht hpos (v := v)).trans hb
    rw [hY] at this
    have := mul_nonneg hs.le (L_nonneg hγ (behind_good hγ hl hp0) (v := v) hK)
    linarith

end

theorem L_mir (γ v K : ℝ) (s : P3) : L γ (-v) K (mir s) = L γ v K s := by
  simp only [L, mir]; ring

theorem Q_mir (γ v K : ℝ) (s : P3) : Q γ (-v) K (mir s) = -Q γ v K s := by
  simp only [Q, L_mir]; simp only [mir]; ring

/-- The same from the other side. -/
theorem far {γ : ℝ} (hγ : 1 < γ) {r : P3} (hr : Good r) {v K p α : ℝ} (hK : 0 ≤ K) (hp0 : 0 < p)
    (ha : front γ p r + r.u ≤ α) : -(p * (r.u + speedChange γ r p - v)) ≤ α * L γ v K r - Q γ v K r := by
  have hf : front γ p (mir r) = front γ p r := rfl
  have hu : (mir r).u = -r.u := rfl
  have := near hγ (good_flip.2 hr) (v := -v) hK hp0 (α := α) (by rw [hf, hu]; linarith)
  rw [L_mir, Q_mir, speedChange_flip, hu] at this
  linarith

/-- The state behind a shock of the code which moves left. -/
theorem shock_star {γ : ℝ} (hγ : 1 < γ) {l : P3} (hl : Good l) {v K p u α η : ℝ} (hK : 0 ≤ K) (hp : l.p ≤ p)
    (hu0 : 0 ≤ u) (hη : 0 ≤ η) (hu : u + η = l.u - phi γ l p) (ha : massFlow γ l p / l.rho - l.u ≤ α)
    (hS : shockSpeed l ⟨0, u, p⟩ < 0) :
    0 < shockDensity l ⟨0, u, p⟩ ∧
    Q γ v K ⟨shockDensity l ⟨0, u, p⟩, u, p⟩ ≤ α * L γ v K l + Q γ v K l := by
  have hp0 : 0 < p := lt_of_lt_of_le hl.2 hp
  have hg : 0 < γ - 1 := by linarith
  have hr := hl.1
  have hm := massFlow_pos hγ hl hp0
  have hm2 := massFlow_sq hγ hl hp0
  have hphi : phi γ l p * massFlow γ l p = p - l.p := div_mul_cancel₀ _ hm.ne'
  have hphi0 : 0 ≤ phi γ l p := div_nonneg (by linarith) hm.le
  set m := massFlow γ l p with hmdef
  set f := phi γ l p with hf
  set S := shockSpeed l ⟨0, u, p⟩ with hSdef
  have hD : 0 ≤ l.u - u := by linarith
  have hul : 0 ≤ l.u := by linarith
  have hne : (u - l.u) * l.rho ≠ 0 := by
    intro h
    have : S = l.u + l.u := by
      rw [hSdef]; unfold shockSpeed; dsimp only; rw [if_neg (not_not.2 h)]
    linarith
  have hDpos : 0 < l.u - u := by
    rcases eq_or_lt_of_le hD with h | h
    · exfalso; apply hne; rw [show u - l.u = -(l.u - u) by ring, ← h]; ring
    · exact h
  have hSe : S = l.u + (p - l.p) / ((u - l.u) * l.rho) := by
    rw [hSdef]; unfold shockSpeed; dsimp only; rw [if_pos hne]
  -- the mass which passes
  have hw : (l.u - S) * l.rho * (l.u - u) = p - l.p := by
    rw [hSe]; have := hr.ne'; have h7 : u - l.u ≠ 0 := by intro h; apply hne; rw [h, zero_mul]
    field_simp; ring
  set w := l.u - S with hwdef
  set D := l.u - u with hDdef
  have hwD : 0 < w - D := by linarith
  have huS : u - S = w - D := by rw [hwdef, hDdef]; ring
  set rho := shockDensity l ⟨0, u, p⟩ with hrho
  have hrhoe : rho = l.rho * (w / (w - D)) := by
    rw [hrho]; unfold shockDensity; dsimp only; rw [← hSdef, huS]
  have hwpos : 0 < w := by linarith
  have hrpos : 0 < rho := by rw [hrhoe]; exact mul_pos hr (div_pos hwpos hwD)
  have hmass : rho * (w - D) = l.rho * w := by rw [hrhoe]; field_simp
  refine ⟨hrpos, ?_⟩
  have hL := L_nonneg hγ hl (v := v) hK
  have hL' := L_nonneg hγ (show Good (⟨rho, u, p⟩ : P3) from ⟨hrpos, hp0⟩) (v := v) hK
  have hfD : f ≤ D := by rw [hDdef]; linarith
  -- the wave is slower
  have hslow : w ≤ m / l.rho := by
    rw [le_div_iff₀ hr]
    rcases eq_or_lt_of_le hp with h | h
    · have : w * l.rho * D = 0 := by rw [hw, ← h, sub_self]
      rcases mul_eq_zero.1 this with h2 | h2
      · rw [h2]; exact hm.le
      · exact absurd h2 hDpos.ne'
    · have hfpos : 0 < f := div_pos (by linarith) hm
      have h1 : w * l.rho * f ≤ m * f := by
        have : w * l.rho * f ≤ w * l.rho * D := mul_le_mul_of_nonneg_left hfD (mul_pos hwpos hr).le
        rw [hw, ← hphi] at this
        linarith
      exact le_of_mul_le_mul_right h1 hfpos
  -- the energy
  have hE : 0 ≤ (w * l.p - (w - D) * p) / (γ - 1) + 1 / 2 * (p + l.p) * D := by
    have h1 : 0 ≤ D * l.rho * (w * l.p - (w - D) * p + (γ - 1) * (1 / 2 * (p + l.p) * D)) := by
      have h2 : D * l.rho * (w * l.p - (w - D) * p + (γ - 1) * (1 / 2 * (p + l.p) * D)) =
          l.rho * bigP γ l p * (D * D) - (w * l.rho * D) * (p - l.p) := by unfold bigP; ring
      rw [h2, hw, ← hm2, ← hphi]
      have h3 : f * f ≤ D * D := mul_self_le_mul_self hphi0 hfD
      have h4 := mul_le_mul_of_nonneg_left h3 (mul_pos hm hm).le
      linarith [show m * m * (f * f) = f * m * (f * m) by ring]
    have h5 := nonneg_of_mul_nonneg_right h1 (mul_pos hDpos hr)
    have h6 := div_nonneg h5 hg.le
    have h7 : (w * l.p - (w - D) * p + (γ - 1) * (1 / 2 * (p + l.p) * D)) / (γ - 1) =
        (w * l.p - (w - D) * p) / (γ - 1) + 1 / 2 * (p + l.p) * D := by field_simp
    linarith
  have e : α * L γ v K l + Q γ v K l - Q γ v K ⟨rho, u, p⟩ =
      (α + l.u - w) * L γ v K l + (-S) * L γ v K ⟨rho, u, p⟩ +
        ((w * l.p - (w - D) * p) / (γ - 1) + 1 / 2 * (p + l.p) * D) := by
    have hue : u = l.u - D := by rw [hDdef]; ring
    have hSw : S = l.u - w := by rw [hwdef]; ring
    simp only [Q, L]
    rw [hSw, hue]
    field_simp
    linear_combination (γ - 1) * (2 * l.u - 2 * v - D) * hw - (γ - 1) * ((l.u - D - v) * (l.u - D - v) + 2 * K) * hmass
  have h8 : 0 ≤ (α + l.u - w) * L γ v K l := mul_nonneg (by linarith) hL
  have h9 : 0 ≤ (-S) * L γ v K ⟨rho, u, p⟩ := mul_nonneg (by linarith) hL'
  linarith

/-- The state behind an expansion of the code. -/
theorem expansion_star {γ : ℝ} (hγ : 1 < γ) {v K p u a η M : ℝ} (hK : 0 ≤ K) (hp : 0 < p) (ha : 0 < a) (hη : 0 ≤ η)
    (hu : 0 ≤ u) (hua : u < a + (γ - 1) / 2 * η) (h1 : a ≤ M) (h2 : u + η ≤ M) :
    Q γ v K ⟨γ * p / ((a + (γ - 1) / 2 * η) * (a + (γ - 1) / 2 * η)), u, p⟩ ≤
      M * L γ v K ⟨γ * p / (a * a), u + η, p⟩ + p * (u + η - v) := by
  have hg : 0 < γ - 1 := by linarith
  have hγ0 : 0 < γ := by linarith
  set b := a + (γ - 1) / 2 * η with hb
  have hab : a ≤ b := by have := mul_nonneg (by linarith : 0 ≤ (γ - 1) / 2) hη; linarith
  have hbpos : 0 < b := by linarith
  have hM : 0 < M := by linarith
  set A := M * (γ * p / (a * a)) with hA
  set B := u * (γ * p / (b * b)) with hB
  have hA0 : 0 < A := mul_pos hM (div_pos (mul_pos hγ0 hp) (mul_pos ha ha))
  have hB0 : 0 ≤ B := mul_nonneg hu (div_pos (mul_pos hγ0 hp) (mul_pos hbpos hbpos)).le
  -- the difference of the two
  have key : A * B * (b - a) ≤ γ * p * (A - B) := by
    have h5 : γ * p * (A - B) - A * B * (b - a) =
        (γ * p) * (γ * p) / (a * a * (b * b)) * (M * (b * b) - u * (a * a) - M * u * (b - a)) := by
      rw [hA, hB]; field_simp
    have h6 : 0 ≤ M * (b * b) - u * (a * a) - M * u * (b - a) := by
      have h7 : M * b * u ≤ M * b * b := mul_le_mul_of_nonneg_left hua.le (mul_pos hM hbpos).le
      have h8 : u * a * a ≤ u * a * M := mul_le_mul_of_nonneg_left h1 (mul_nonneg hu ha.le)
      nlinarith
    have h9 := mul_nonneg (div_pos (mul_pos (mul_pos hγ0 hp) (mul_pos hγ0 hp))
      (mul_pos (mul_pos ha ha) (mul_pos hbpos hbpos))).le h6
    linarith
  have hba : b - a = (γ - 1) / 2 * η := by rw [hb]; ring
  have hBA : B ≤ A := by
    have h5 : 0 ≤ A * B * (b - a) := mul_nonneg (mul_nonneg hA0.le hB0) (by linarith)
    have h6 : 0 ≤ γ * p * (A - B) := h5.trans key
    have := nonneg_of_mul_nonneg_right h6 (mul_pos hγ0 hp)
    linarith
  set x := u - v with hx
  -- the motion along the axis
  have hkin : 0 ≤ A * ((x + η) * (x + η)) - B * (x * x) + 2 * (γ * p / (γ - 1)) * η := by
    have hc : 0 ≤ 2 * (γ * p / (γ - 1)) * η :=
      mul_nonneg (mul_nonneg two_pos.le (div_pos (mul_pos hγ0 hp) hg).le) hη
    rcases eq_or_lt_of_le hBA with h | h
    · -- then there is no η
      rw [h] at key hB0
      rw [sub_self, mul_zero, hba] at key
      have h5 : η = 0 := by
        by_contra hne
        have : 0 < η := lt_of_le_of_ne hη (Ne.symm hne)
        have := mul_pos (mul_pos hA0 hA0) (mul_pos (by linarith : 0 < (γ - 1) / 2) this)
        linarith
      rw [h5, h]
      simp
    · have h5 : 0 < A - B := by linarith
      have h6 : A * B * (η * η) ≤ (A - B) * (2 * (γ * p / (γ - 1)) * η) := by
        have h7 : (A - B) * (2 * (γ * p / (γ - 1)) * η) = (γ * p * (A - B)) * (2 / (γ - 1) * η) := by
          field_simp
        have h8 : A * B * (η * η) = A * B * (b - a) * (2 / (γ - 1) * η) := by rw [hba]; field_simp
        rw [h7, h8]
        exact mul_le_mul_of_nonneg_right key (mul_nonneg (div_pos two_pos hg).le hη)
      have h9 : 0 ≤ (A - B) * (A * ((x + η) * (x + η)) - B * (x * x) + 2 * (γ * p / (γ - 1)) * η) := by
        nlinarith [mul_self_nonneg ((A - B) * x + A * η)]
      exact nonneg_of_mul_nonneg_right h9 h5
  have hKK : 0 ≤ (A - B) * K := mul_nonneg (by linarith) hK
  have hpp : η * (p / (γ - 1)) ≤ (M - u) * (p / (γ - 1)) :=
    mul_le_mul_of_nonneg_right (by linarith) (div_pos hp hg).le
  have hgg : γ * p / (γ - 1) = p / (γ - 1) + p := by field_simp; ring
  have e : M * L γ v K ⟨γ * p / (a * a), u + η, p⟩ + p * (u + η - v) - Q γ v K ⟨γ * p / (b * b), u, p⟩ =
      (M - u) * (p / (γ - 1)) + p * η + (A * ((x + η) * (x + η)) - B * (x * x)) / 2 + (A - B) * K := by
    simp only [L, Q, hA, hB, hx]
    ring
  rw [hgg] at hkin
  linarith

end MiniCFD.Positive
