import Verif.Lemmas.PositiveSolver
import Mathlib.Analysis.SpecialFunctions.Log.Deriv

/-! Waves never lower the entropy, in the axes of a face. -/

namespace MiniCFD.Entropy

open MiniCFD.Euler MiniCFD.Exact MiniCFD.Spec.Exact MiniCFD.Positive

/-! ### Shocks -/

/-- The density behind a shock is not more than what the pressure would give at equal entropy. -/
theorem hugoniot {γ : ℝ} (hγ : 1 < γ) {z : ℝ} (hz : 1 ≤ z) :
    (((γ + 1) * z + (γ - 1)) / ((γ - 1) * z + (γ + 1))) ^ γ ≤ z := by
  have hg : 0 < γ - 1 := by linarith
  have hA : ∀ x : ℝ, 0 < x → 0 < (γ + 1) * x + (γ - 1) := fun x hx => by
    have := mul_pos (by linarith : 0 < γ + 1) hx
    linarith
  have hB : ∀ x : ℝ, 0 < x → 0 < (γ - 1) * x + (γ + 1) := fun x hx => by
    have := mul_pos hg hx
    linarith
  have hd : ∀ x : ℝ, 0 < x → HasDerivAt
      (fun x => Real.log x - γ * (Real.log ((γ + 1) * x + (γ - 1)) - Real.log ((γ - 1) * x + (γ + 1))))
      (x⁻¹ - γ * ((γ + 1) / ((γ + 1) * x + (γ - 1)) - (γ - 1) / ((γ - 1) * x + (γ + 1)))) x := by
    intro x hx
    have h1 : HasDerivAt (fun x => (γ + 1) * x + (γ - 1)) (γ + 1) x := by
      have := ((hasDerivAt_id x).const_mul (γ + 1)).add_const (γ - 1)
      rwa [mul_one] at this
    have h2 : HasDerivAt (fun x => (γ - 1) * x + (γ + 1)) (γ - 1) x := by
      have := ((hasDerivAt_id x).const_mul (γ - 1)).add_const (γ + 1)
      rwa [mul_one] at this
    exact (Real.hasDerivAt_log hx.ne').sub (((h1.log (hA x hx).ne').sub (h2.log (hB x hx).ne')).const_mul γ)
  have mono : MonotoneOn (fun x => Real.log x -
      γ * (Real.log ((γ + 1) * x + (γ - 1)) - Real.log ((γ - 1) * x + (γ + 1)))) (Set.Icc 1 z) := by
    refine monotoneOn_of_deriv_nonneg (convex_Icc _ _)
      (fun x hx => (hd x (by linarith [hx.1])).continuousAt.continuousWithinAt)
      (fun x hx => (hd x (by linarith [(interior_subset hx : x ∈ Set.Icc 1 z).1])).differentiableAt.differentiableWithinAt) ?_
    intro x hx
    have hx0 : 0 < x := by linarith [(interior_subset hx : x ∈ Set.Icc 1 z).1]
    rw [(hd x hx0).deriv]
    have e : x⁻¹ - γ * ((γ + 1) / ((γ + 1) * x + (γ - 1)) - (γ - 1) / ((γ - 1) * x + (γ + 1))) =
        (γ + 1) * (γ - 1) * ((x - 1) * (x - 1)) / (x * (((γ + 1) * x + (γ - 1)) * ((γ - 1) * x + (γ + 1)))) := by
      have h1 := (hA x hx0).ne'
      have h2 := (hB x hx0).ne'
      field_simp
      ring
    rw [e]
    exact div_nonneg (mul_nonneg (mul_nonneg (by linarith) hg.le) (mul_self_nonneg _))
      (mul_pos hx0 (mul_pos (hA x hx0) (hB x hx0))).le
  have hz0 : 0 < z := by linarith
  have key := mono ⟨le_rfl, hz⟩ ⟨hz, le_rfl⟩ hz
  have e1 : (γ + 1) * 1 + (γ - 1) = (γ - 1) * 1 + (γ + 1) := by ring
  simp only [Real.log_one, e1, sub_self, mul_zero] at key
  have hq := div_pos (hA z hz0) (hB z hz0)
  rw [← Real.log_le_log_iff (Real.rpow_pos_of_pos hq γ) hz0, Real.log_rpow hq,
    Real.log_div (hA z hz0).ne' (hB z hz0).ne']
  linarith

/-- At least this entropy. -/
def Above (γ s0 : ℝ) (s : P3) : Prop := s0 * s.rho ^ γ ≤ s.p

section

variable {γ : ℝ} (hγ : 1 < γ) {l : P3} (hl : Good l)
include hγ hl

theorem shock_above {s0 p : ℝ} (hs : 0 ≤ s0) (h : Above γ s0 l) (hp : l.p ≤ p) (u : ℝ) :
    Above γ s0 ⟨rhoShock γ l p, u, p⟩ := by
  have hp0 : 0 < p := lt_of_lt_of_le hl.2 hp
  have hpl := hl.2.ne'
  have hz : 1 ≤ p / l.p := (one_le_div hl.2).2 hp
  have k := hugoniot hγ hz
  have e : rhoShock γ l p = l.rho * (((γ + 1) * (p / l.p) + (γ - 1)) / ((γ - 1) * (p / l.p) + (γ + 1))) := by
    unfold rhoShock bigP
    have h1 : (γ - 1) * p + (γ + 1) * l.p ≠ 0 := by
      have := mul_pos (by linarith : 0 < γ - 1) hp0
      have := mul_pos (by linarith : 0 < γ + 1) hl.2
      linarith
    have h2 : (γ - 1) * (p / l.p) + (γ + 1) ≠ 0 := by
      have := mul_pos (by linarith : 0 < γ - 1) (div_pos hp0 hl.2)
      linarith
    field_simp
  unfold Above
  dsimp only
  have hq : 0 ≤ ((γ + 1) * (p / l.p) + (γ - 1)) / ((γ - 1) * (p / l.p) + (γ + 1)) := by
    have := mul_pos (by linarith : 0 < γ - 1) (div_pos hp0 hl.2)
    have := mul_pos (by linarith : 0 < γ + 1) (div_pos hp0 hl.2)
    exact div_nonneg (by linarith) (by linarith)
  rw [e, Real.mul_rpow hl.1.le hq]
  have h1 : 0 ≤ s0 * l.rho ^ γ := mul_nonneg hs (Real.rpow_pos_of_pos hl.1 γ).le
  calc s0 * (l.rho ^ γ * _) = s0 * l.rho ^ γ * _ := by ring
    _ ≤ s0 * l.rho ^ γ * (p / l.p) := mul_le_mul_of_nonneg_left k h1
    _ ≤ l.p * (p / l.p) := mul_le_mul_of_nonneg_right h (div_pos hp0 hl.2).le
    _ = p := by field_simp

/-- Fans keep the entropy. -/
theorem fan_above {s0 ξ : ℝ} (h : Above γ s0 l) (ha : 0 < fanA γ l ξ) : Above γ s0 (fan γ l ξ) := by
  have hc := c_pos hγ hl
  have hx : 0 < fanA γ l ξ / c γ l := div_pos ha hc
  have hg : γ - 1 ≠ 0 := by linarith
  have hg0 : γ ≠ 0 := by linarith
  have e : (fan γ l ξ).p = l.p * ((fanA γ l ξ / c γ l) ^ (2 / (γ - 1))) ^ γ := by
    have e1 : ((fanA γ l ξ / c γ l) ^ (2 / (γ - 1))) ^ γ =
        (fanA γ l ξ / c γ l) ^ (2 / (γ - 1)) * ((fanA γ l ξ / c γ l) * (fanA γ l ξ / c γ l)) := by
      rw [← Real.rpow_mul hx.le, ← sq, ← Real.rpow_natCast, ← Real.rpow_add hx]
      congr 1
      push_cast
      field_simp
      ring
    rw [e1, div_mul_div_comm, c_sq hγ hl]
    unfold fan fanRho
    dsimp only
    have h1 := hl.1.ne'
    have h2 := hl.2.ne'
    field_simp
  unfold Above at *
  rw [e]
  have e2 : (fan γ l ξ).rho = l.rho * (fanA γ l ξ / c γ l) ^ (2 / (γ - 1)) := rfl
  have hy := Real.rpow_pos_of_pos hx (2 / (γ - 1))
  rw [e2, Real.mul_rpow hl.1.le hy.le]
  have := mul_le_mul_of_nonneg_right h (Real.rpow_pos_of_pos hy γ).le
  linarith

end

/-! ### One wave -/

/-- A functional which is positive on the gases of at least this entropy. -/
def Test (γ s0 v K k : ℝ) : Prop := ∀ s : P3, Good s → Above γ s0 s → 0 ≤ L γ v K s + k

/-- What is asked of a wave. -/
structure Wave (γ v K k α : ℝ) (l w : P3) (u p : ℝ) : Prop where
  near : p * (u - v) - u * k ≤ α * (L γ v K l + k) + Q γ v K l
  taken : Q γ v K w ≤ α * (L γ v K l + k) + Q γ v K l
  left : 0 ≤ u → p * (u - v) - u * k ≤ Q γ v K w

section

variable {γ : ℝ} (hγ : 1 < γ) {l : P3} (hl : Good l)
include hγ hl

theorem pass_falls {s0 v K k : ℝ} (ht : Test γ s0 v K k) (h : Above γ s0 l) {ξ ζ : ℝ} (hx : ξ ≤ ζ)
    (ha : 0 < fanA γ l ζ) : pass γ v K l ζ - ζ * k ≤ pass γ v K l ξ - ξ * k := by
  have hpos : ∀ x ∈ Set.Icc ξ ζ, 0 < fanA γ l x := fun x hx => lt_of_lt_of_le ha (fanA_mono hγ hx.2)
  have hd : ∀ x ∈ Set.Icc ξ ζ, HasDerivAt (fun x => pass γ v K l x - x * k) (-L γ v K (fan γ l x) - k) x := by
    intro x hx
    have := (pass_deriv hγ hl v K (hpos x hx)).sub ((hasDerivAt_id x).mul_const k)
    rwa [one_mul] at this
  have anti : AntitoneOn (fun x => pass γ v K l x - x * k) (Set.Icc ξ ζ) := by
    refine antitoneOn_of_deriv_nonpos (convex_Icc _ _)
      (fun x hx => (hd x hx).continuousAt.continuousWithinAt)
      (fun x hx => (hd x (interior_subset hx)).differentiableAt.differentiableWithinAt) ?_
    intro x hx
    have hp := hpos x (interior_subset hx)
    rw [(hd x (interior_subset hx)).deriv]
    have := ht _ (fan_good hγ hl hp) (fan_above hγ hl h hp)
    linarith
  exact anti ⟨le_rfl, hx⟩ ⟨hx, le_rfl⟩ hx

theorem wave_shock {s0 v K k α p u : ℝ} (hs : 0 ≤ s0) (ht : Test γ s0 v K k) (h : Above γ s0 l) (hp : l.p ≤ p)
    (h0 : 0 ≤ α) (ha : front γ p l - l.u ≤ α) (hu : u = l.u - phi γ l p) :
    Wave γ v K k α l (nearShock1 l ⟨0, u, p⟩) u p := by
  have hp0 : 0 < p := lt_of_lt_of_le hl.2 hp
  have hN := ht l hl h
  have hαN := mul_nonneg h0 hN
  rcases eq_or_lt_of_le hp with e | hlt
  · -- nothing happens
    subst e
    have hc := c_pos hγ hl
    have hf := front_ge hγ hl l.p
    have hu' : u = l.u := by rw [hu, phi_at, sub_zero]
    have hw : nearShock1 l ⟨0, u, l.p⟩ = l := by
      have hS : shockSpeed l ⟨0, l.u, l.p⟩ = l.u + l.u := by
        unfold shockSpeed
        dsimp only
        rw [sub_self, zero_mul, if_neg (not_not.2 rfl)]
      unfold nearShock1 shockDensity
      rw [hu', hS]
      split
      · rename_i hneg
        ext
        · dsimp only
          rw [div_self (by linarith), mul_one]
        · exact rfl
        · rfl
      · rfl
    rw [hw, hu']
    have e : l.p * (l.u - v) - l.u * k = Q γ v K l - l.u * (L γ v K l + k) := by simp only [Q]; ring
    have h2 : 0 ≤ (α + l.u) * (L γ v K l + k) := mul_nonneg (by linarith) hN
    exact ⟨by rw [e]; linarith, by linarith, fun h3 => by rw [e]; have := mul_nonneg h3 hN; linarith⟩
  · have hm := massFlow_pos hγ hl hp0
    have hm2 := massFlow_sq hγ hl hp0
    have hR := rhoShock_pos hγ hl hp0
    have hue : u = l.u - (p - l.p) / massFlow γ l p := hu
    obtain ⟨j1, j2, j3⟩ := jump_of_mass hγ hl hp0 hm hm2
    rw [← hue] at j1 j2 j3
    have hsp : shockSpeed l ⟨0, u, p⟩ = l.u - massFlow γ l p / l.rho := by rw [hue]; exact shockSpeed_eq hγ hl hlt
    have hde : shockDensity l ⟨0, u, p⟩ = rhoShock γ l p := by rw [hue]; exact shockDensity_eq hγ hl hlt
    have hfr := front_shock hγ hl hp
    rw [hfr] at ha
    have hus : 0 < u - (l.u - massFlow γ l p / l.rho) := by
      have := speed_after hγ hl hp0
      have := div_pos hm hR
      linarith
    unfold nearShock1
    rw [hsp, hde]
    have hα : -(l.u - massFlow γ l p / l.rho) ≤ α := by linarith
    generalize l.u - massFlow γ l p / l.rho = S at *
    have hN' := ht ⟨rhoShock γ l p, u, p⟩ ⟨hR, hp0⟩ (shock_above hγ hl hs h hp u)
    have hJ : Q γ v K ⟨rhoShock γ l p, u, p⟩ - S * L γ v K ⟨rhoShock γ l p, u, p⟩ = Q γ v K l - S * L γ v K l := by
      simp only [Q, L, energy] at *
      linear_combination -j3 + v * j2 - (v * v / 2 + K) * j1
    have e : p * (u - v) - u * k = Q γ v K ⟨rhoShock γ l p, u, p⟩ - u * (L γ v K ⟨rhoShock γ l p, u, p⟩ + k) := by
      simp only [Q]; ring
    have h1 : 0 ≤ (α + S) * (L γ v K l + k) := mul_nonneg (by linarith) hN
    have h2 := mul_nonneg hus.le hN'
    by_cases hS : S < 0
    · rw [if_pos hS]
      have h3 : 0 ≤ (-S) * (L γ v K ⟨rhoShock γ l p, u, p⟩ + k) := mul_nonneg (by linarith) hN'
      refine ⟨by rw [e]; linarith, ?_, fun h4 => ?_⟩
      · show Q γ v K ⟨rhoShock γ l p, u, p⟩ ≤ _
        linarith
      · show _ ≤ Q γ v K ⟨rhoShock γ l p, u, p⟩
        rw [e]
        have := mul_nonneg h4 hN'
        linarith
    · rw [if_neg hS]
      push Not at hS
      have h3 := mul_nonneg hS hN
      exact ⟨by rw [e]; linarith, by linarith, fun _ => by rw [e]; linarith⟩

theorem wave_fan {s0 v K k α p u : ℝ} (ht : Test γ s0 v K k) (h : Above γ s0 l) (hp0 : 0 < p) (hp : p < l.p)
    (h0 : 0 ≤ α) (ha : c γ l - l.u ≤ α) (hu : u = l.u - psi γ l p) :
    Wave γ v K k α l (nearExpansion1 γ l ⟨0, u, p⟩) u p := by
  have hN := ht l hl h
  have hαN := mul_nonneg h0 hN
  obtain ⟨e1, e2⟩ := fan_behind hγ hl hp0
  obtain ⟨b1, b2⟩ := fan_begin hγ hl
  have hsf := soundFan_pos hγ hl hp0
  have htail := head_tail hγ hl hp0 hp.le
  have hpsi := psi_eq hγ hl p
  have hg : γ - 1 ≠ 0 := by linarith
  have hpos : 0 < fanA γ l (l.u - psi γ l p - soundFan γ l p) := by rw [e2]; exact hsf
  rw [← hu] at e1 e2 htail hpos
  have hb : behind γ l p = ⟨γ * p / (soundFan γ l p * soundFan γ l p), u, p⟩ := by rw [hu]; rfl
  rw [hb] at e1
  have hNb : 0 ≤ L γ v K ⟨γ * p / (soundFan γ l p * soundFan γ l p), u, p⟩ + k := by
    rw [← e1]
    exact ht _ (fan_good hγ hl hpos) (fan_above hγ hl h hpos)
  have hafter : c γ l + (γ - 1) / 2 * (l.u - u) = soundFan γ l p := by
    rw [hu, show l.u - (l.u - psi γ l p) = psi γ l p by ring, hpsi]
    field_simp
    ring
  -- energy which passes the head and the tail
  have hhead : pass γ v K l (l.u - c γ l) - (l.u - c γ l) * k = Q γ v K l - (l.u - c γ l) * (L γ v K l + k) := by
    have := pass_Q hγ hl v K (l.u - c γ l)
    rw [b1] at this
    linarith
  have hend : pass γ v K l (u - soundFan γ l p) - (u - soundFan γ l p) * k =
      Q γ v K ⟨γ * p / (soundFan γ l p * soundFan γ l p), u, p⟩ -
        (u - soundFan γ l p) * (L γ v K ⟨γ * p / (soundFan γ l p * soundFan γ l p), u, p⟩ + k) := by
    have := pass_Q hγ hl v K (u - soundFan γ l p)
    rw [e1] at this
    linarith
  have hall := pass_falls hγ hl ht h htail hpos
  have hnear : p * (u - v) - u * k = Q γ v K ⟨γ * p / (soundFan γ l p * soundFan γ l p), u, p⟩ -
      u * (L γ v K ⟨γ * p / (soundFan γ l p * soundFan γ l p), u, p⟩ + k) := by simp only [Q]; ring
  have hlow : p * (u - v) - u * k ≤ pass γ v K l (u - soundFan γ l p) - (u - soundFan γ l p) * k := by
    rw [hend, hnear]
    have := mul_nonneg hsf.le hNb
    linarith
  have hup : pass γ v K l (l.u - c γ l) - (l.u - c γ l) * k ≤ α * (L γ v K l + k) + Q γ v K l := by
    rw [hhead]
    have : 0 ≤ (α + (l.u - c γ l)) * (L γ v K l + k) := mul_nonneg (by linarith) hN
    linarith
  refine ⟨hlow.trans (hall.trans hup), ?_, ?_⟩
  all_goals
    unfold nearExpansion1
    simp only [sound3_eq hl]
    rw [hafter]
  · by_cases k1 : u - soundFan γ l p < 0
    · rw [if_pos k1]
      have : 0 ≤ -(u - soundFan γ l p) * (L γ v K ⟨γ * p / (soundFan γ l p * soundFan γ l p), u, p⟩ + k) :=
        mul_nonneg (by linarith) hNb
      linarith
    · rw [if_neg k1]
      by_cases k2 : l.u - c γ l > 0
      · rw [if_pos k2]; linarith
      · rw [if_neg k2]
        push Not at k1 k2
        have hJ : 0 < l.u + 2 / (γ - 1) * c γ l := by
          have h1 : l.u + 2 / (γ - 1) * c γ l = u + 2 / (γ - 1) * soundFan γ l p := by
            rw [hu, hpsi]; ring
          rw [h1]
          have : 0 < 2 / (γ - 1) * soundFan γ l p := mul_pos (div_pos two_pos (by linarith)) hsf
          linarith
        obtain ⟨f1, f2⟩ := fan_sonic hγ hl hJ
        rw [f1, pass_Q hγ hl, zero_mul, add_zero]
        have := pass_falls hγ hl ht h k2 f2
        linarith
  · intro hu0
    by_cases k1 : u - soundFan γ l p < 0
    · rw [if_pos k1]
      rw [hnear]
      have := mul_nonneg hu0 hNb
      linarith
    · rw [if_neg k1]
      by_cases k2 : l.u - c γ l > 0
      · rw [if_pos k2]
        have := mul_nonneg k2.le hN
        linarith
      · rw [if_neg k2]
        push Not at k1 k2
        have hJ : 0 < l.u + 2 / (γ - 1) * c γ l := by
          have h1 : l.u + 2 / (γ - 1) * c γ l = u + 2 / (γ - 1) * soundFan γ l p := by
            rw [hu, hpsi]; ring
          rw [h1]
          have : 0 < 2 / (γ - 1) * soundFan γ l p := mul_pos (div_pos two_pos (by linarith)) hsf
          linarith
        obtain ⟨f1, f2⟩ := fan_sonic hγ hl hJ
        rw [f1, pass_Q hγ hl, zero_mul, add_zero]
        have := pass_falls hγ hl ht h k1 hpos
        linarith

/-- The left wave of the code. -/
theorem wave_left {s0 v K k α p u : ℝ} (hs : 0 ≤ s0) (ht : Test γ s0 v K k) (h : Above γ s0 l) (hp0 : 0 < p)
    (h0 : 0 ≤ α) (ha : front γ p l - l.u ≤ α) (hu : u = l.u - speedChange γ l p) :
    Wave γ v K k α l (code1 γ l ⟨0, u, p⟩) u p := by
  rw [speedChange_eq hl] at hu
  unfold code1
  by_cases hp : l.p ≤ p
  · rw [if_pos hp] at hu
    rw [if_pos (show (⟨0, u, p⟩ : P3).p ≥ l.p from hp)]
    exact wave_shock hγ hl hs ht h hp h0 ha hu
  · rw [if_neg hp] at hu
    rw [if_neg (show ¬ (⟨0, u, p⟩ : P3).p ≥ l.p from hp)]
    exact wave_fan hγ hl ht h hp0 (not_le.1 hp) h0 ((sub_le_sub_right (front_ge hγ hl p) _).trans ha) hu

end

theorem test_flip {γ s0 v K k : ℝ} (h : Test γ s0 v K k) : Test γ s0 (-v) K k := fun s hs ha => by
  have := h (mir s) (good_flip.2 hs) ha
  rwa [← L_mir, Exact.flip_flip] at this

/-- The right wave of the code. -/
theorem wave_right {γ : ℝ} (hγ : 1 < γ) {r : P3} (hr : Good r) {s0 v K k α p u : ℝ} (hs : 0 ≤ s0)
    (ht : Test γ s0 v K k) (h : Above γ s0 r) (hp0 : 0 < p)
    (h0 : 0 ≤ α) (ha : front γ p r + r.u ≤ α) (hu : u = r.u + speedChange γ r p) :
    -(p * (u - v)) + u * k ≤ α * (L γ v K r + k) - Q γ v K r ∧
    -Q γ v K (code3 γ r ⟨0, u, p⟩) ≤ α * (L γ v K r + k) - Q γ v K r ∧
    (u ≤ 0 → Q γ v K (code3 γ r ⟨0, u, p⟩) ≤ p * (u - v) - u * k) := by
  have hfr : front γ p (mir r) = front γ p r := rfl
  have hur : (mir r).u = -r.u := rfl
  obtain ⟨w1, w2, w3⟩ := wave_left hγ (good_flip.2 hr) hs (test_flip ht) (l := mir r) h hp0 h0
    (by rw [hfr, hur]; linarith) (u := -u) (by rw [speedChange_flip, hur, hu]; ring)
  have e : code1 γ (mir r) ⟨0, -u, p⟩ = mir (code3 γ r ⟨0, u, p⟩) := code_flip γ r ⟨0, u, p⟩
  rw [e] at w2 w3
  rw [L_mir, Q_mir] at w1 w2
  rw [Q_mir] at w2 w3
  exact ⟨by linarith, by linarith, fun hu0 => by have := w3 (by linarith); linarith⟩

end MiniCFD.Entropy
