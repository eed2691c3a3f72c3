import Verif.Lemmas.Exact

namespace MiniCFD.Exact
open MiniCFD.Euler MiniCFD.Spec.Exact

/-! ### Shocks -/

/-- Density between a shock and the contact. -/
noncomputable def rhoShock (γ : ℝ) (b : P3) (p : ℝ) : ℝ :=
  b.rho * (2 * bigP γ b p) / ((γ - 1) * p + (γ + 1) * b.p)

theorem rhoShock_pos {γ : ℝ} (hγ : 1 < γ) {b : P3} (h : Good b) {p : ℝ} (hp : 0 < p) :
    0 < rhoShock γ b p := by
  have h1 := bigP_pos hγ h hp.le
  have h2 : 0 < (γ - 1) * p := mul_pos (by linarith) hp
  have h3 : 0 < (γ + 1) * b.p := mul_pos (by linarith) h.2
  exact div_pos (mul_pos h.1 (by linarith)) (by linarith)

/-- With `m` the mass flow through the shock. -/
theorem jump_of_mass {γ : ℝ} (hγ : 1 < γ) {b : P3} (h : Good b) {p m : ℝ} (hp : 0 < p)
    (hm : 0 < m) (hm2 : m * m = b.rho * bigP γ b p) :
    Jump γ (b.u - m / b.rho) b ⟨rhoShock γ b p, b.u - (p - b.p) / m, p⟩ := by
  have h1 := h.1.ne'
  have h2 : (γ - 1) * p + (γ + 1) * b.p ≠ 0 := by
    have h2 : 0 < (γ - 1) * p := mul_pos (by linarith) hp
    have h3 : 0 < (γ + 1) * b.p := mul_pos (by linarith) h.2
    linarith
  have hm0 := hm.ne'
  have hγ1 : γ - 1 ≠ 0 := by linarith
  have hr : rhoShock γ b p * ((γ - 1) * p + (γ + 1) * b.p) = b.rho * (2 * bigP γ b p) :=
    div_mul_cancel₀ _ h2
  have hP : bigP γ b p = ((γ + 1) * p + (γ - 1) * b.p) / 2 := by unfold bigP; ring
  -- the mass flow behind the shock
  have key : rhoShock γ b p * (m / b.rho - (p - b.p) / m) = m := by
    have : (m / b.rho - (p - b.p) / m) * (2 * m) = (γ - 1) * p + (γ + 1) * b.p := by
      field_simp
      rw [pow_two, hm2, hP]
      field_simp
      ring
    have h3 : (rhoShock γ b p * (m / b.rho - (p - b.p) / m)) * (2 * m) = m * (2 * m) := by
      rw [mul_assoc, this, hr]
      linear_combination (-2) * hm2
    exact mul_right_cancel₀ (mul_ne_zero two_ne_zero hm0) h3
  generalize hR : rhoShock γ b p = R at *
  have hw : (m / b.rho) * b.rho = m := div_mul_cancel₀ _ h1
  have hv : ((p - b.p) / m) * m = p - b.p := div_mul_cancel₀ _ hm0
  generalize m / b.rho = w at *
  generalize (p - b.p) / m = v at *
  -- hw : w * ρ = m, hv : v * m = p - pb, key : R * (w - v) = m
  have hE : 2 * (p * (w - v) - b.p * w) = (γ - 1) * (v * (p + b.p)) := by
    -- multiply by m
    have : (2 * (p * (w - v) - b.p * w)) * m = ((γ - 1) * (v * (p + b.p))) * m := by
      have e1 : w * m * 2 = (γ + 1) * p + (γ - 1) * b.p := by
        have : b.rho * (w * m * 2) = b.rho * ((γ + 1) * p + (γ - 1) * b.p) := by
          rw [hP] at hm2
          linear_combination 2 * m * hw + 2 * hm2
        exact mul_left_cancel₀ h1 this
      linear_combination (p - b.p) * e1 - (2 * p + (γ - 1) * (p + b.p)) * hv
    exact mul_right_cancel₀ hm0 this
  refine ⟨?_, ?_, ?_⟩
  · dsimp only
    linear_combination hw - key
  · dsimp only
    linear_combination (b.u - v) * (-key) + b.u * hw + hv
  · unfold energy
    dsimp only
    have a1 : p / (γ - 1) * (γ - 1) = p := div_mul_cancel₀ _ hγ1
    have a2 : b.p / (γ - 1) * (γ - 1) = b.p := div_mul_cancel₀ _ hγ1
    have hE2 : 2 * (p / (γ - 1) * (w - v) - b.p / (γ - 1) * w) = v * (p + b.p) := by
      apply mul_right_cancel₀ hγ1
      linear_combination hE + 2 * (w - v) * a1 - 2 * w * a2
    generalize p / (γ - 1) = x at *
    generalize b.p / (γ - 1) = y at *
    linear_combination (-(b.u - v) ^ 2 / 2) * key + (b.u ^ 2 / 2) * hw + (b.u - v / 2) * hv -
      (1 / 2) * hE2

/-- The mass flow through a shock. -/
noncomputable def massFlow (γ : ℝ) (b : P3) (p : ℝ) : ℝ := Real.sqrt (b.rho * bigP γ b p)

theorem massFlow_pos {γ : ℝ} (hγ : 1 < γ) {b : P3} (h : Good b) {p : ℝ} (hp : 0 < p) :
    0 < massFlow γ b p := Real.sqrt_pos.2 (mul_pos h.1 (bigP_pos hγ h hp.le))

theorem massFlow_sq {γ : ℝ} (hγ : 1 < γ) {b : P3} (h : Good b) {p : ℝ} (hp : 0 < p) :
    massFlow γ b p * massFlow γ b p = b.rho * bigP γ b p :=
  Real.mul_self_sqrt (mul_pos h.1 (bigP_pos hγ h hp.le)).le

/-- The flow ahead of a shock is supersonic relative to it. -/
theorem lax_before {γ : ℝ} (hγ : 1 < γ) {b : P3} (h : Good b) {p : ℝ} (hp : b.p ≤ p) :
    c γ b ≤ massFlow γ b p / b.rho := by
  have hp0 : 0 < p := lt_of_lt_of_le h.2 hp
  have hm := massFlow_pos hγ h hp0
  have hm2 := massFlow_sq hγ h hp0
  refine Real.sqrt_le_iff.2 ⟨(div_pos hm h.1).le, ?_⟩
  rw [div_pow, pow_two, hm2, pow_two, div_le_div_iff₀ h.1 (mul_pos h.1 h.1)]
  have : γ * b.p ≤ bigP γ b p := by
    unfold bigP
    have : (γ + 1) / 2 * b.p ≤ (γ + 1) / 2 * p := mul_le_mul_of_nonneg_left hp (by linarith)
    linarith
  calc γ * b.p * (b.rho * b.rho) ≤ bigP γ b p * (b.rho * b.rho) :=
        mul_le_mul_of_nonneg_right this (mul_pos h.1 h.1).le
    _ = b.rho * bigP γ b p * b.rho := by ring

/-- The flow behind a shock is subsonic relative to it. -/
theorem lax_after {γ : ℝ} (hγ : 1 < γ) {b : P3} (h : Good b) {p : ℝ} (hp : b.p ≤ p) :
    massFlow γ b p / rhoShock γ b p ≤ Real.sqrt (γ * p / rhoShock γ b p) := by
  have hp0 : 0 < p := lt_of_lt_of_le h.2 hp
  have hm2 := massFlow_sq hγ h hp0
  have hR := rhoShock_pos hγ h hp0
  refine Real.le_sqrt_of_sq_le ?_
  rw [div_pow, pow_two, hm2, pow_two, div_le_div_iff₀ (mul_pos hR hR) hR]
  have hD : 0 < (γ - 1) * p + (γ + 1) * b.p := by
    have h2 : 0 < (γ - 1) * p := mul_pos (by linarith) hp0
    have h3 : 0 < (γ + 1) * b.p := mul_pos (by linarith) h.2
    linarith
  have hr : rhoShock γ b p * ((γ - 1) * p + (γ + 1) * b.p) = b.rho * (2 * bigP γ b p) :=
    div_mul_cancel₀ _ hD.ne'
  have k : b.rho * bigP γ b p ≤ γ * p * rhoShock γ b p := by
    have h4 : (γ + 1) * b.p ≤ (γ + 1) * p := mul_le_mul_of_nonneg_left hp (by linarith)
    have : rhoShock γ b p * ((γ - 1) * p + (γ + 1) * b.p) ≤ rhoShock γ b p * (2 * (γ * p)) :=
      mul_le_mul_of_nonneg_left (by linarith) hR.le
    rw [hr] at this
    linarith
  calc b.rho * bigP γ b p * rhoShock γ b p ≤ γ * p * rhoShock γ b p * rhoShock γ b p :=
        mul_le_mul_of_nonneg_right k hR.le
    _ = γ * p * (rhoShock γ b p * rhoShock γ b p) := by ring

/-- Relative speed behind the shock. -/
theorem speed_after {γ : ℝ} (hγ : 1 < γ) {b : P3} (h : Good b) {p : ℝ} (hp : 0 < p) :
    massFlow γ b p / b.rho - (p - b.p) / massFlow γ b p = massFlow γ b p / rhoShock γ b p := by
  have hm := massFlow_pos hγ h hp
  have hm2 := massFlow_sq hγ h hp
  have hR := rhoShock_pos hγ h hp
  obtain ⟨j1, -, -⟩ := jump_of_mass hγ h hp hm hm2
  dsimp only at j1
  rw [eq_div_iff hR.ne']
  have hw : (massFlow γ b p / b.rho) * b.rho = massFlow γ b p := div_mul_cancel₀ _ h.1.ne'
  linear_combination hw - j1

/-- `Shock<1>` on a state that lies on the shock curve. -/
theorem shockSpeed_eq {γ : ℝ} (hγ : 1 < γ) {b : P3} (h : Good b) {p : ℝ} (hp : b.p < p) :
    shockSpeed b ⟨0, b.u - (p - b.p) / massFlow γ b p, p⟩ = b.u - massFlow γ b p / b.rho := by
  have hp0 : 0 < p := lt_trans h.2 hp
  have hm := massFlow_pos hγ h hp0
  unfold shockSpeed
  have hne : (b.u - (p - b.p) / massFlow γ b p - b.u) * b.rho ≠ 0 := by
    apply mul_ne_zero _ h.1.ne'
    have : 0 < (p - b.p) / massFlow γ b p := div_pos (by linarith) hm
    intro h'; linarith
  simp only [if_pos hne]
  have h1 := h.1.ne'
  have h2 : p - b.p ≠ 0 := by linarith
  have h3 := hm.ne'
  rw [show b.u - (p - b.p) / massFlow γ b p - b.u = -((p - b.p) / massFlow γ b p) by ring]
  field_simp
  ring

theorem shockDensity_eq {γ : ℝ} (hγ : 1 < γ) {b : P3} (h : Good b) {p : ℝ} (hp : b.p < p) :
    shockDensity b ⟨0, b.u - (p - b.p) / massFlow γ b p, p⟩ = rhoShock γ b p := by
  have hp0 : 0 < p := lt_trans h.2 hp
  have hm := massFlow_pos hγ h hp0
  have hR := rhoShock_pos hγ h hp0
  unfold shockDensity
  rw [shockSpeed_eq hγ h hp]
  dsimp only
  rw [show b.u - (p - b.p) / massFlow γ b p - (b.u - massFlow γ b p / b.rho) =
    massFlow γ b p / b.rho - (p - b.p) / massFlow γ b p by ring, speed_after hγ h hp0]
  have h1 := h.1.ne'
  have h2 := hR.ne'
  have h3 := hm.ne'
  rw [show b.u - (b.u - massFlow γ b p / b.rho) = massFlow γ b p / b.rho by ring]
  field_simp

theorem wave1_shock {γ : ℝ} (hγ : 1 < γ) {b : P3} (h : Good b) {p u : ℝ} (hp : b.p ≤ p)
    (hu : u = b.u - speedChange γ b p) :
    ∃ s : P3, Good s ∧ s.u = u ∧ s.p = p ∧ Wave1 γ b s (nearShock1 b ⟨0, u, p⟩) := by
  rw [speedChange_eq h, if_pos hp] at hu
  have hp0 : 0 < p := lt_of_lt_of_le h.2 hp
  rcases eq_or_lt_of_le hp with e | hlt
  · subst e
    rw [phi_at, sub_zero] at hu
    subst hu
    refine ⟨b, h, rfl, rfl, Or.inl ⟨le_rfl, b.u - c γ b, ⟨by ring, by ring, by ring⟩, le_rfl,
      le_rfl, ?_⟩⟩
    have hv : nearShock1 b ⟨0, b.u, b.p⟩ = b := by
      have hs : shockSpeed b ⟨0, b.u, b.p⟩ = b.u + b.u := by
        unfold shockSpeed; simp
      unfold nearShock1 shockDensity
      rw [hs]
      split
      · rename_i hneg
        apply P3.ext
        · dsimp only
          rw [div_self (by intro h'; linarith), mul_one]
        · rfl
        · rfl
      · rfl
    rw [hv]
    exact ⟨fun _ => rfl, fun _ => rfl, fun _ => Or.inl rfl⟩
  · have hm := massFlow_pos hγ h hp0
    have hu' : u = b.u - (p - b.p) / massFlow γ b p := hu
    have hs : shockSpeed b ⟨0, u, p⟩ = b.u - massFlow γ b p / b.rho := by
      rw [hu']; exact shockSpeed_eq hγ h hlt
    have hd : shockDensity b ⟨0, u, p⟩ = rhoShock γ b p := by
      rw [hu']; exact shockDensity_eq hγ h hlt
    refine ⟨⟨rhoShock γ b p, u, p⟩, ⟨rhoShock_pos hγ h hp0, hp0⟩, rfl, rfl, Or.inl ⟨hp,
      b.u - massFlow γ b p / b.rho, ?_, ?_, ?_, ?_⟩⟩
    · rw [hu']; exact jump_of_mass hγ h hp0 hm (massFlow_sq hγ h hp0)
    · have := lax_before hγ h hp; linarith
    · have h1 := lax_after hγ h hp
      have h2 := speed_after hγ h hp0
      unfold c
      dsimp only
      rw [hu']
      linarith
    · unfold nearShock1
      rw [hs, hd]
      refine ⟨fun h' => if_neg (by linarith), fun h' => if_pos h', fun h' => ?_⟩
      left; exact if_neg (by linarith)

/-! ### Expansions -/

/-- Speed of sound behind an expansion. -/
noncomputable def soundFan (γ : ℝ) (b : P3) (p : ℝ) : ℝ :=
  c γ b * (p / b.p) ^ ((γ - 1) / 2 / γ)

theorem soundFan_pos {γ : ℝ} (hγ : 1 < γ) {b : P3} (h : Good b) {p : ℝ} (hp : 0 < p) :
    0 < soundFan γ b p :=
  mul_pos (c_pos hγ h) (Real.rpow_pos_of_pos (div_pos hp h.2) _)

theorem sound_of_density {γ : ℝ} (hγ : 1 < γ) {a p u : ℝ} (ha : 0 < a) (hp : 0 < p) :
    c γ ⟨γ * p / (a * a), u, p⟩ = a := by
  unfold c
  dsimp only
  have h1 : γ * p ≠ 0 := mul_ne_zero (by linarith) hp.ne'
  have h2 := ha.ne'
  rw [show γ * p / (γ * p / (a * a)) = a * a by field_simp]
  exact Real.sqrt_mul_self ha.le

theorem entropy_of_density {γ : ℝ} (hγ : 1 < γ) {b : P3} (h : Good b) {p : ℝ} (hp : 0 < p) :
    p / (γ * p / (soundFan γ b p * soundFan γ b p)) ^ γ = b.p / b.rho ^ γ := by
  have hx := div_pos hp h.2
  have hγ0 : γ ≠ 0 := by linarith
  have hc := c_sq hγ h
  have e1 : γ * p / (soundFan γ b p * soundFan γ b p) = b.rho * (p / b.p) ^ (1 / γ) := by
    have e2 : soundFan γ b p * soundFan γ b p =
        γ * b.p / b.rho * (p / b.p) ^ ((γ - 1) / γ) := by
      unfold soundFan
      rw [mul_mul_mul_comm, hc, ← Real.rpow_add hx]
      congr 2
      ring
    have e3 : (p / b.p) ^ ((γ - 1) / γ) * (p / b.p) ^ (1 / γ) = p / b.p := by
      rw [← Real.rpow_add hx, show (γ - 1) / γ + 1 / γ = 1 by field_simp; ring, Real.rpow_one]
    have h1 := h.1.ne'
    have h2 := h.2.ne'
    rw [e2, div_eq_iff (mul_ne_zero (div_ne_zero (mul_ne_zero hγ0 h2) h1)
      (Real.rpow_pos_of_pos hx _).ne')]
    calc γ * p = γ * b.p * (p / b.p) := by field_simp
      _ = γ * b.p * ((p / b.p) ^ ((γ - 1) / γ) * (p / b.p) ^ (1 / γ)) := by rw [e3]
      _ = _ := by field_simp
  rw [e1, Real.mul_rpow h.1.le (Real.rpow_pos_of_pos hx _).le, ← Real.rpow_mul hx.le,
    one_div_mul_cancel hγ0, Real.rpow_one]
  have h2 := h.2.ne'
  have h3 := (Real.rpow_pos_of_pos h.1 γ).ne'
  have h4 := hp.ne'
  field_simp

/-- `PrimitiveInsideExpansion`: sonic, and on the given invariants. -/
theorem insideExpansion_spec {γ : ℝ} (hγ : 1 < γ) {g1 g2 : ℝ} (h1 : 0 < g1) (h2 : 0 < g2) :
    let v := insideExpansion γ g1 g2
    Good v ∧ v.p / v.rho ^ γ = g1 ∧ v.u = c γ v ∧ v.u + 2 / (γ - 1) * c γ v = g2 := by
  intro v
  have hγ1 : 0 < γ - 1 := by linarith
  have ha : 0 < (γ - 1) / (γ + 1) * g2 := mul_pos (div_pos hγ1 (by linarith)) h2
  have hbase : 0 < (γ - 1) / (γ + 1) * g2 * ((γ - 1) / (γ + 1) * g2) / g1 * (1 / γ) :=
    mul_pos (div_pos (mul_pos ha ha) h1) (one_div_pos.2 (by linarith))
  have hrho : 0 < v.rho := Real.rpow_pos_of_pos hbase _
  have hu : v.u = (γ - 1) / (γ + 1) * g2 := rfl
  have hpe : v.p = v.u * v.u * v.rho * (1 / γ) := rfl
  have hrho' : v.rho = (v.u * v.u / g1 * (1 / γ)) ^ (1 / (γ - 1)) := rfl
  rw [← hu] at ha hbase
  have hp : 0 < v.p := by
    rw [hpe]; exact mul_pos (mul_pos (mul_pos ha ha) hrho) (one_div_pos.2 (by linarith))
  have hγ0 : γ ≠ 0 := by linarith
  have hr0 := hrho.ne'
  have hc : c γ v = v.u := by
    unfold c
    rw [show γ * v.p / v.rho = v.u * v.u by rw [hpe]; field_simp]
    exact Real.sqrt_mul_self ha.le
  have hpow : v.rho ^ (γ - 1) = v.u * v.u / g1 * (1 / γ) := by
    rw [hrho', ← Real.rpow_mul hbase.le, one_div_mul_cancel hγ1.ne', Real.rpow_one]
  have hpow2 : v.rho ^ γ = v.rho * (v.u * v.u / g1 * (1 / γ)) := by
    rw [← hpow]
    nth_rewrite 2 [← Real.rpow_one v.rho]
    rw [← Real.rpow_add hrho]
    congr 1; ring
  refine ⟨⟨hrho, hp⟩, ?_, hc.symm, ?_⟩
  · rw [hpow2, hpe]
    have h3 := ha.ne'
    have h4 := h1.ne'
    field_simp
  · rw [hc, hu]
    have : γ + 1 ≠ 0 := by linarith
    have := hγ1.ne'
    field_simp
    ring

theorem wave1_expansion {γ : ℝ} (hγ : 1 < γ) {b : P3} (h : Good b) {p u : ℝ} (hp0 : 0 < p)
    (hp : p < b.p) (hu : u = b.u - speedChange γ b p) :
    ∃ s : P3, Good s ∧ s.u = u ∧ s.p = p ∧ Wave1 γ b s (nearExpansion1 γ b ⟨0, u, p⟩) := by
  rw [speedChange_eq h, if_neg (not_le.2 hp)] at hu
  have ha := soundFan_pos hγ h hp0
  have hγ1 : γ - 1 ≠ 0 := by linarith
  have hcb := c_pos hγ h
  have hx1 : (p / b.p) ^ ((γ - 1) / 2 / γ) < 1 := by
    apply Real.rpow_lt_one (div_pos hp0 h.2).le ((div_lt_one h.2).2 hp)
    apply div_pos <;> linarith
  have hal : soundFan γ b p < c γ b := by
    unfold soundFan
    have := mul_lt_mul_of_pos_left hx1 hcb
    linarith
  have hu2 : u - b.u = 2 / (γ - 1) * (c γ b - soundFan γ b p) := by
    rw [hu]; unfold psi soundFan; ring
  have hafter : c γ b + (γ - 1) / 2 * (b.u - u) = soundFan γ b p := by
    have : (γ - 1) / 2 * (b.u - u) = -((γ - 1) / 2 * (2 / (γ - 1))) * (c γ b - soundFan γ b p) := by
      linear_combination (-(γ - 1) / 2) * hu2
    rw [this, show (γ - 1) / 2 * (2 / (γ - 1)) = 1 by field_simp]
    ring
  have hs := sound_of_density (u := u) hγ ha hp0
  have hlt : b.u < u := by
    have : 0 < 2 / (γ - 1) * (c γ b - soundFan γ b p) :=
      mul_pos (div_pos two_pos (by linarith)) (by linarith)
    linarith
  refine ⟨⟨γ * p / (soundFan γ b p * soundFan γ b p), u, p⟩, ⟨div_pos (mul_pos (by linarith) hp0)
    (mul_pos ha ha), hp0⟩, rfl, rfl, Or.inr ⟨hp, ⟨entropy_of_density hγ h hp0, ?_⟩, ?_, ?_, ?_, ?_⟩⟩
  · rw [hs]; dsimp only; linear_combination hu2
  · rw [hs]; dsimp only; linarith
  · intro h'
    unfold nearExpansion1
    simp only [sound3_eq h, hafter]
    rw [if_neg (by linarith), if_pos h']
  · intro h'
    rw [hs] at h'
    unfold nearExpansion1
    simp only [sound3_eq h, hafter]
    rw [if_pos h']
  · intro h1 h2
    rw [hs] at h2
    dsimp only at h2
    unfold nearExpansion1
    simp only [sound3_eq h, hafter]
    rw [if_neg (by linarith), if_neg (by linarith)]
    have hg2 : 0 < b.u + 2 / (γ - 1) * c γ b := by
      have : b.u + 2 / (γ - 1) * c γ b = u + 2 / (γ - 1) * soundFan γ b p := by
        linear_combination (-1) * hu2
      rw [this]
      have : 0 < 2 / (γ - 1) * soundFan γ b p := mul_pos (div_pos two_pos (by linarith)) ha
      linarith
    obtain ⟨-, i1, i2, i3⟩ := insideExpansion_spec hγ
      (div_pos h.2 (Real.rpow_pos_of_pos h.1 γ)) hg2
    exact ⟨⟨i1, i3⟩, i2⟩

/-- The code's left wave. -/
noncomputable def code1 (γ : ℝ) (b star : P3) : P3 :=
  if star.p ≥ b.p then nearShock1 b star else nearExpansion1 γ b star

noncomputable def code3 (γ : ℝ) (b star : P3) : P3 :=
  if star.p ≥ b.p then nearShock3 b star else nearExpansion3 γ b star

theorem wave1_code {γ : ℝ} (hγ : 1 < γ) {b : P3} (h : Good b) {p u : ℝ} (hp0 : 0 < p)
    (hu : u = b.u - speedChange γ b p) :
    ∃ s : P3, Good s ∧ s.u = u ∧ s.p = p ∧ Wave1 γ b s (code1 γ b ⟨0, u, p⟩) := by
  unfold code1
  by_cases hp : p ≥ b.p
  · simp only [if_pos hp]; exact wave1_shock hγ h hp hu
  · simp only [if_neg hp]; exact wave1_expansion hγ h hp0 (not_le.1 hp) hu

/-! ### Mirror images -/

theorem flip_flip (s : P3) : mir (mir s) = s := by
  unfold mir; simp

theorem good_flip {s : P3} : Good (mir s) ↔ Good s := Iff.rfl
theorem c_flip (γ : ℝ) (s : P3) : c γ (mir s) = c γ s := rfl
theorem sound3_flip (γ : ℝ) (s : P3) : sound3 γ (mir s) = sound3 γ s := rfl
theorem speedChange_flip (γ : ℝ) (s : P3) : speedChange γ (mir s) = speedChange γ s := rfl

theorem shockSpeed_flip (a b : P3) : shockSpeed (mir a) (mir b) = -shockSpeed a b := by
  unfold shockSpeed mir
  dsimp only
  have e : (-b.u - -a.u) * a.rho = -((b.u - a.u) * a.rho) := by ring
  rw [e]
  by_cases h : (b.u - a.u) * a.rho = 0
  · simp [h]
  · rw [if_pos (neg_ne_zero.2 h), if_pos h, div_neg]; ring

theorem shockDensity_flip (a b : P3) : shockDensity (mir a) (mir b) = shockDensity a b := by
  unfold shockDensity
  rw [shockSpeed_flip]
  unfold mir
  dsimp only
  congr 1
  rw [show -a.u - -shockSpeed a b = -(a.u - shockSpeed a b) by ring,
    show -b.u - -shockSpeed a b = -(b.u - shockSpeed a b) by ring, neg_div_neg_eq]

theorem nearShock_flip (a b : P3) : nearShock1 (mir a) (mir b) = mir (nearShock3 a b) := by
  unfold nearShock1 nearShock3
  rw [shockSpeed_flip, shockDensity_flip]
  by_cases h : shockSpeed a b > 0
  · rw [if_pos (by linarith), if_pos h]; rfl
  · rw [if_neg (by linarith), if_neg h]

theorem insideExpansion_flip (γ g1 g2 : ℝ) :
    insideExpansion γ g1 (-g2) = mir (insideExpansion γ g1 g2) := by
  unfold insideExpansion mir
  simp only [mul_neg, neg_mul, neg_neg]

theorem nearExpansion_flip (γ : ℝ) (a b : P3) :
    nearExpansion1 γ (mir a) (mir b) = mir (nearExpansion3 γ a b) := by
  unfold nearExpansion1 nearExpansion3
  have e1 : sound3 γ (mir a) + (γ - 1) / 2 * ((mir a).u - (mir b).u) =
      sound3 γ a - (γ - 1) / 2 * (a.u - b.u) := by
    rw [sound3_flip]; unfold mir; ring
  have e2 : (mir a).u + 2 / (γ - 1) * sound3 γ (mir a) = -(a.u - 2 / (γ - 1) * sound3 γ a) := by
    rw [sound3_flip]; unfold mir; ring
  simp only [e1, e2, insideExpansion_flip]
  generalize sound3 γ a - (γ - 1) / 2 * (a.u - b.u) = A
  have f1 : (mir b).u = -b.u := rfl
  have f2 : (mir a).u = -a.u := rfl
  rw [f1, f2]
  by_cases h1 : b.u + A > 0
  · rw [if_pos (by linarith), if_pos h1]; rfl
  · rw [if_neg (by linarith), if_neg h1]
    by_cases h2 : a.u + sound3 γ a < 0
    · rw [if_pos (by rw [sound3_flip]; linarith), if_pos h2]
    · rw [if_neg (by rw [sound3_flip]; linarith), if_neg h2]; rfl

theorem code_flip (γ : ℝ) (a b : P3) : code1 γ (mir a) (mir b) = mir (code3 γ a b) := by
  unfold code1 code3
  rw [nearShock_flip, nearExpansion_flip]
  have e1 : (mir a).p = a.p := rfl
  have e2 : (mir b).p = b.p := rfl
  rw [e1, e2]
  split <;> rfl

theorem jump_flip {γ S : ℝ} {a b : P3} (h : Jump γ S a b) : Jump γ (-S) (mir b) (mir a) := by
  obtain ⟨h1, h2, h3⟩ := h
  unfold Jump energy mir at *
  dsimp only at *
  refine ⟨?_, ?_, ?_⟩
  · linear_combination h1
  · linear_combination -h2
  · linear_combination h3

theorem fan_flip {γ : ℝ} {a b : P3} (h : SameFan1 γ (mir a) (mir b)) : SameFan3 γ a b := by
  obtain ⟨h1, h2⟩ := h
  refine ⟨h1, ?_⟩
  rw [c_flip, c_flip] at h2
  unfold mir at h2
  dsimp only at h2
  linarith

theorem wave_flip {γ : ℝ} {r s v : P3} (h : Wave1 γ (mir r) (mir s) (mir v)) :
    Wave3 γ s r v := by
  have inj : ∀ x : P3, mir v = mir x → v = x := fun x e => by
    rw [← flip_flip v, e, flip_flip]
  have f : ∀ x : P3, (mir x).u = -x.u := fun _ => rfl
  rcases h with ⟨h1, S, h2, h3, h4, h5, h6, h7⟩ | ⟨h1, h2, h3, h4, h5, h6⟩
  · rw [c_flip, f] at h3 h4
    refine Or.inl ⟨h1, -S, ?_, by linarith, by linarith, fun h' => inj r (h5 (by linarith)),
      fun h' => inj s (h6 (by linarith)), fun h' => ?_⟩
    · have := jump_flip h2
      rwa [flip_flip, flip_flip] at this
    · rcases h7 (by linarith) with e | e
      · exact Or.inl (inj _ e)
      · exact Or.inr (inj _ e)
  · rw [c_flip, f] at h3 h4 h5 h6
    rw [c_flip, f] at h3 h6
    refine Or.inr ⟨h1, fan_flip h2, by linarith, fun h' => inj r (h4 (by linarith)),
      fun h' => inj s (h5 (by linarith)), fun h' h'' => ?_⟩
    obtain ⟨k1, k2⟩ := h6 (by linarith) (by linarith)
    refine ⟨fan_flip k1, ?_⟩
    rw [c_flip, f] at k2
    linarith

theorem wave3_code {γ : ℝ} (hγ : 1 < γ) {b : P3} (h : Good b) {p u : ℝ} (hp0 : 0 < p)
    (hu : u = b.u + speedChange γ b p) :
    ∃ s : P3, Good s ∧ s.u = u ∧ s.p = p ∧ Wave3 γ s b (code3 γ b ⟨0, u, p⟩) := by
  obtain ⟨s, h1, h2, h3, h4⟩ := wave1_code hγ (good_flip.2 h) (p := p) (u := -u) hp0 (by
    rw [speedChange_flip, hu]; unfold mir; ring)
  refine ⟨mir s, h1, ?_, h3, ?_⟩
  · unfold mir; dsimp only; rw [h2]; ring
  · apply wave_flip
    rw [flip_flip, ← code_flip]
    exact h4

/-! ### Face reversal -/

theorem code1_tie {γ : ℝ} (hγ : 1 < γ) {b : P3} (h : Good b) {p : ℝ} (hp0 : 0 < p)
    (hu : 0 = b.u - speedChange γ b p) :
    (code1 γ b ⟨0, 0, p⟩).u = 0 ∧ (code1 γ b ⟨0, 0, p⟩).p = p := by
  unfold code1
  by_cases hp : p ≥ b.p
  · simp only [if_pos hp]
    rcases eq_or_lt_of_le hp with e | hlt
    · subst e
      rw [speedChange_eq h, if_pos le_rfl, phi_at, sub_zero] at hu
      unfold nearShock1
      split
      · exact ⟨rfl, rfl⟩
      · exact ⟨hu.symm, rfl⟩
    · rw [speedChange_eq h, if_pos hp] at hu
      have hu' : (0 : ℝ) = b.u - (p - b.p) / massFlow γ b p := hu
      have hs : shockSpeed b ⟨0, 0, p⟩ = b.u - massFlow γ b p / b.rho := by
        rw [hu']
        exact shockSpeed_eq hγ h hlt
      have h2 := speed_after hγ h hp0
      have h3 : 0 < massFlow γ b p / rhoShock γ b p :=
        div_pos (massFlow_pos hγ h hp0) (rhoShock_pos hγ h hp0)
      unfold nearShock1
      rw [hs, if_pos (by linarith)]
      exact ⟨rfl, rfl⟩
  · simp only [if_neg hp]
    obtain ⟨s, hsg, hs1, hs2, hw⟩ := wave1_expansion hγ h hp0 (not_le.1 hp) hu
    rcases hw with ⟨h', -⟩ | ⟨-, -, -, -, h5, -⟩
    · rw [hs2] at h'; exact absurd h' hp
    · have := c_pos hγ hsg
      rw [h5 (by rw [hs1]; linarith), hs1, hs2]
      exact ⟨rfl, rfl⟩

def ofSc (s : Sc) : P3 := ⟨s.rho, s.u, s.p⟩

theorem ofSc_flip (s : Sc) : ofSc s.flip = mir (ofSc s) := rfl

noncomputable def sideMass (v : P3) : ℝ := v.rho * v.u
noncomputable def sidePi (k : Sc) (v : P3) : ℝ := v.p + v.rho * v.u * (v.u - k.u)
noncomputable def sideEnergy (γ : ℝ) (k : Sc) (v : P3) : ℝ :=
  v.u * (v.p * (1 / (γ - 1)) + v.rho * ((v.u * v.u + (k.K - k.u * k.u)) * (1 / 2)) + v.p)

noncomputable def exactCoef (γ p : ℝ) (l r : Sc) : Coef :=
  let o := ordinary γ (ofSc l) (ofSc r) p
  if 0 < o.2 then ⟨sideMass o.1, sideMass o.1, 0, sidePi l o.1, sideEnergy γ l o.1⟩
  else ⟨sideMass o.1, 0, sideMass o.1, sidePi r o.1, sideEnergy γ r o.1⟩

/-- The flux for a given star pressure. -/
noncomputable def fluxAt {d : Nat} (γ p : ℝ) (l r : Tup d) : Tup d :=
  let o := ordinary γ (P3.of l) (P3.of r) p
  primFlux γ (setPassive o.1 o.2 l r)

theorem sum_passive {d : Nat} (k : Tup d) (x : ℝ) :
    (∑ i, (if i = 0 then x else k.mom i) * (if i = 0 then x else k.mom i)) =
      x * x + ((sc k).K - k.mom 0 * k.mom 0) := by
  unfold sc
  dsimp only
  rw [Fin.sum_univ_succ, Fin.sum_univ_succ (f := fun i => k.mom i * k.mom i)]
  simp only [Fin.succ_ne_zero, if_false, if_true]
  ring

theorem fluxAt_assemble {d : Nat} (γ p : ℝ) (l r : Tup d) :
    fluxAt γ p l r = assemble (exactCoef γ p (sc l) (sc r)) l r := by
  unfold fluxAt exactCoef
  have e1 : ofSc (sc l) = P3.of l := rfl
  have e2 : ofSc (sc r) = P3.of r := rfl
  rw [e1, e2]
  generalize ordinary γ (P3.of l) (P3.of r) p = o
  dsimp only
  by_cases h : 0 < o.2
  · simp only [if_pos h, setPassive, gt_iff_lt, primFlux, toCons, dynamicPressure, Tup.scale,
      assemble]
    simp only [sum_passive l o.1.u, Tup.mk.injEq, Pi.smul_apply, smul_eq_mul, sideMass, sidePi,
      sideEnergy, if_true]
    refine ⟨by ring, ?_, by unfold sc; ring⟩
    funext i
    by_cases hi : i = 0
    · subst hi; simp only [if_true, sc]; ring
    · simp only [if_neg hi]; ring
  · simp only [if_neg h, setPassive, gt_iff_lt, primFlux, toCons, dynamicPressure, Tup.scale,
      assemble]
    simp only [sum_passive r o.1.u, Tup.mk.injEq, Pi.smul_apply, smul_eq_mul, sideMass, sidePi,
      sideEnergy, if_true]
    refine ⟨by ring, ?_, by unfold sc; ring⟩
    funext i
    by_cases hi : i = 0
    · subst hi; simp only [if_true, sc]; ring
    · simp only [if_neg hi]; ring

noncomputable def starSpeed (γ : ℝ) (l r : P3) (p : ℝ) : ℝ :=
  1 / 2 * (r.u + speedChange γ r p + l.u - speedChange γ l p)

theorem ordinary_eq (γ : ℝ) (l r : P3) (p : ℝ) :
    ordinary γ l r p = (if 0 < starSpeed γ l r p then code1 γ l ⟨0, starSpeed γ l r p, p⟩
      else code3 γ r ⟨0, starSpeed γ l r p, p⟩, starSpeed γ l r p) := rfl

theorem starSpeed_flip (γ : ℝ) (l r : P3) (p : ℝ) :
    starSpeed γ (mir r) (mir l) p = -starSpeed γ l r p := by
  unfold starSpeed
  rw [speedChange_flip, speedChange_flip]
  unfold mir
  ring

theorem starSpeed_root {γ : ℝ} {l r : P3} {p : ℝ} (h : pressureFn γ l r p = 0) :
    starSpeed γ l r p = l.u - speedChange γ l p ∧ starSpeed γ l r p = r.u + speedChange γ r p := by
  unfold pressureFn at h
  unfold starSpeed
  constructor <;> linarith

theorem pressureFn_flip (γ : ℝ) (l r : P3) : pressureFn γ (mir r) (mir l) = pressureFn γ l r := by
  funext p
  unfold pressureFn
  rw [speedChange_flip, speedChange_flip]
  unfold mir
  ring

theorem code1_flip' (γ : ℝ) (a b : P3) : code3 γ (mir a) (mir b) = mir (code1 γ a b) := by
  have := code_flip γ (mir a) (mir b)
  rw [flip_flip, flip_flip] at this
  rw [this, flip_flip]

theorem side_flip (γ : ℝ) (k : Sc) (v : P3) :
    sideMass (mir v) = -sideMass v ∧ sidePi k.flip (mir v) = sidePi k v ∧
      sideEnergy γ k.flip (mir v) = -sideEnergy γ k v := by
  unfold sideMass sidePi sideEnergy mir
  simp only [flip_u, flip_K]
  exact ⟨by ring, by ring, by ring⟩

theorem exactCoef_pos {γ p : ℝ} {l r : Sc} (h : 0 < starSpeed γ (ofSc l) (ofSc r) p) :
    exactCoef γ p l r =
      ⟨sideMass (code1 γ (ofSc l) ⟨0, starSpeed γ (ofSc l) (ofSc r) p, p⟩),
       sideMass (code1 γ (ofSc l) ⟨0, starSpeed γ (ofSc l) (ofSc r) p, p⟩), 0,
       sidePi l (code1 γ (ofSc l) ⟨0, starSpeed γ (ofSc l) (ofSc r) p, p⟩),
       sideEnergy γ l (code1 γ (ofSc l) ⟨0, starSpeed γ (ofSc l) (ofSc r) p, p⟩)⟩ := by
  have e : (ordinary γ (ofSc l) (ofSc r) p).1 =
      code1 γ (ofSc l) ⟨0, starSpeed γ (ofSc l) (ofSc r) p, p⟩ := if_pos h
  unfold exactCoef
  simp only
  rw [if_pos (show 0 < (ordinary γ (ofSc l) (ofSc r) p).2 from h), e]

theorem exactCoef_neg {γ p : ℝ} {l r : Sc} (h : ¬ 0 < starSpeed γ (ofSc l) (ofSc r) p) :
    exactCoef γ p l r =
      ⟨sideMass (code3 γ (ofSc r) ⟨0, starSpeed γ (ofSc l) (ofSc r) p, p⟩), 0,
       sideMass (code3 γ (ofSc r) ⟨0, starSpeed γ (ofSc l) (ofSc r) p, p⟩),
       sidePi r (code3 γ (ofSc r) ⟨0, starSpeed γ (ofSc l) (ofSc r) p, p⟩),
       sideEnergy γ r (code3 γ (ofSc r) ⟨0, starSpeed γ (ofSc l) (ofSc r) p, p⟩)⟩ := by
  have e : (ordinary γ (ofSc l) (ofSc r) p).1 =
      code3 γ (ofSc r) ⟨0, starSpeed γ (ofSc l) (ofSc r) p, p⟩ := if_neg h
  unfold exactCoef
  simp only
  rw [if_neg (show ¬ 0 < (ordinary γ (ofSc l) (ofSc r) p).2 from h), e]

theorem exactCoef_flip {γ : ℝ} (hγ : 1 < γ) {l r : Sc} (hl : Good (ofSc l)) (hr : Good (ofSc r))
    {p : ℝ} (hp : 0 < p) (h : pressureFn γ (ofSc l) (ofSc r) p = 0) :
    exactCoef γ p r.flip l.flip = (exactCoef γ p l r).flip := by
  obtain ⟨s1, s2⟩ := starSpeed_root h
  have hm : ∀ x : ℝ, (⟨0, -x, p⟩ : P3) = mir ⟨0, x, p⟩ := fun _ => rfl
  have hf : starSpeed γ (ofSc r.flip) (ofSc l.flip) p = -starSpeed γ (ofSc l) (ofSc r) p :=
    starSpeed_flip γ (ofSc l) (ofSc r) p
  rcases lt_trichotomy (starSpeed γ (ofSc l) (ofSc r) p) 0 with hu | hu | hu
  · rw [exactCoef_pos (by rw [hf]; linarith), exactCoef_neg (by linarith), hf, hm, ofSc_flip,
      code_flip]
    obtain ⟨f1, f2, f3⟩ := side_flip γ r (code3 γ (ofSc r) ⟨0, starSpeed γ (ofSc l) (ofSc r) p, p⟩)
    rw [f1, f2, f3]
    simp [Coef.flip]
  · rw [exactCoef_neg (by rw [hf, hu]; simp), exactCoef_neg (by rw [hu]; simp), hf, ofSc_flip]
    rw [hu] at s1 s2 ⊢
    rw [neg_zero]
    obtain ⟨a1, a2⟩ := code1_tie hγ hl hp s1
    obtain ⟨b1, b2⟩ := code1_tie (b := mir (ofSc r)) hγ hr hp (by
      rw [speedChange_flip]; unfold mir; dsimp only; linarith)
    have hm0 : (⟨0, 0, p⟩ : P3) = mir ⟨0, 0, p⟩ := by unfold mir; simp
    have e1 : code3 γ (mir (ofSc l)) ⟨0, 0, p⟩ = mir (code1 γ (ofSc l) ⟨0, 0, p⟩) := by
      conv_lhs => rw [hm0]
      exact code1_flip' γ _ _
    have e2 : code1 γ (mir (ofSc r)) ⟨0, 0, p⟩ = mir (code3 γ (ofSc r) ⟨0, 0, p⟩) := by
      conv_lhs => rw [hm0]
      exact code_flip γ _ _
    rw [e1]
    rw [e2] at b1 b2
    have b1' : (code3 γ (ofSc r) ⟨0, 0, p⟩).u = 0 := by
      unfold mir at b1; dsimp only at b1; linarith
    have b2' : (code3 γ (ofSc r) ⟨0, 0, p⟩).p = p := b2
    have a1' : (mir (code1 γ (ofSc l) ⟨0, 0, p⟩)).u = 0 := by
      unfold mir; dsimp only; rw [a1, neg_zero]
    have a2' : (mir (code1 γ (ofSc l) ⟨0, 0, p⟩)).p = p := a2
    unfold sideMass sidePi sideEnergy
    rw [a1', a2', b1', b2']
    simp [Coef.flip]
  · rw [exactCoef_neg (by rw [hf]; linarith), exactCoef_pos hu, hf, hm, ofSc_flip, code1_flip']
    obtain ⟨f1, f2, f3⟩ := side_flip γ l (code1 γ (ofSc l) ⟨0, starSpeed γ (ofSc l) (ofSc r) p, p⟩)
    rw [f1, f2, f3]
    simp [Coef.flip]

end MiniCFD.Exact
