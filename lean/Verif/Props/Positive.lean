import Verif.Lemmas.PositiveRim
import Mathlib.Tactic.Linarith
import Mathlib.Tactic.NormNum

/-! C132, C133: density and pressure remain positive. -/

namespace MiniCFD.Positive

open MiniCFD.Euler MiniCFD.Spec.Euler MiniCFD.Spec.Positive MiniCFD.Exact MiniCFD.Spec.Exact

variable {d : Nat}

theorem Keeps.admissible {γ : ℝ} (hγ : 1 < γ) {nu : Fin (d + 1) → ℝ} {l r f : Tup d} (hl : Admissible γ l)
    (hr : Admissible γ r) {α θ : ℝ} (h : Keeps γ α nu l r f) (hθ : 0 ≤ θ) (hα : θ * α < 1) :
    Admissible γ (holder γ θ nu f l) ∧ Admissible γ (sharer γ θ nu f r) :=
  ⟨holder_admissible hγ hl hθ hα h.1, sharer_admissible hγ hr hθ hα h.2⟩

theorem times_max {θ a b : ℝ} (ha : θ * a < 1) (hb : θ * b < 1) : θ * max a b < 1 := by
  rcases max_choice a b with h | h <;> rw [h] <;> assumption

/-- HLLC: a part of a cell which the acoustic waves from the face do not cross keeps a positive density and pressure,
whatever the states and the order of the waves. -/
theorem hllc_positive {γ : ℝ} (hγ : 1 < γ) {F : Frame d} (h : Orthonormal F) {left right : Tup d} (hl : Admissible γ left)
    (hr : Admissible γ right) {θ : ℝ} (hθ : 0 ≤ θ) (h1 : θ * reach γ (pvrs γ (F 0) left right) (F 0) left < 1)
    (h2 : θ * reach γ (pvrs γ (F 0) left right) (F 0) right < 1) :
    Admissible γ (holder γ θ (F 0) (upwind γ (hllc γ) F left right) left) ∧
    Admissible γ (sharer γ θ (F 0) (upwind γ (hllc γ) F left right) right) :=
  (hllc_keeps hγ h hl hr (le_max_left _ _) (le_max_right _ _)).admissible hγ hl hr hθ (times_max h1 h2)

/-- The exact solver, with the pressure which its iteration stops at, below any `P` at which the velocities
would have been passed. -/
theorem exact_positive_below {γ : ℝ} (hγ : 1 < γ) (h3 : γ ≤ 3) {F : Frame d} (h : Orthonormal F) {left right : Tup d}
    (hl : Admissible γ left) (hr : Admissible γ right)
    (hv : velAlong (F 0) right - velAlong (F 0) left < 2 / (γ - 1) * (sound γ left + sound γ right)) {P : ℝ} (hP : 0 ≤ P)
    (hP' : 0 ≤ pressureFn γ (seen γ F left) (seen γ F right) P) {θ : ℝ} (hθ : 0 ≤ θ)
    (h1 : θ * reach γ P (F 0) left < 1) (h2 : θ * reach γ P (F 0) right < 1) {fuel : Nat} {s u : ℝ} {f : Tup d}
    (e : rotatedCall fuel γ F s left right = some (f, u)) :
    Admissible γ (holder γ θ (F 0) f left) ∧ Admissible γ (sharer γ θ (F 0) f right) :=
  (call_keeps hγ h3 h hl hr hv hP hP' (le_max_left _ _) (le_max_right _ _) e).admissible hγ hl hr hθ (times_max h1 h2)

/-- The exact solver: gases between which no vacuum forms. The part is given by the two states. -/
theorem exact_positive {γ : ℝ} (hγ : 1 < γ) (h3 : γ ≤ 3) {F : Frame d} (h : Orthonormal F) {left right : Tup d}
    (hl : Admissible γ left) (hr : Admissible γ right)
    (hv : velAlong (F 0) right - velAlong (F 0) left < 2 / (γ - 1) * (sound γ left + sound γ right)) {θ : ℝ} (hθ : 0 ≤ θ)
    (h1 : θ * reach γ (impact γ (F 0) left right) (F 0) left < 1)
    (h2 : θ * reach γ (impact γ (F 0) left right) (F 0) right < 1) {fuel : Nat} {s u : ℝ} {f : Tup d}
    (e : rotatedCall fuel γ F s left right = some (f, u)) :
    Admissible γ (holder γ θ (F 0) f left) ∧ Admissible γ (sharer γ θ (F 0) f right) := by
  have hb := impact_pressure hγ (F := F) hl hr
  exact exact_positive_below hγ h3 h hl hr hv hb.1 hb.2 hθ h1 h2 e

/-- The exact solver: gases between which a vacuum forms, if they do not slide along each other. -/
theorem exact_positive_receding {γ : ℝ} (hγ : 1 < γ) {F : Frame d} (h : Orthonormal F) {left right : Tup d}
    (hl : Admissible γ left) (hr : Admissible γ right)
    (hv : 2 / (γ - 1) * (sound γ left + sound γ right) ≤ velAlong (F 0) right - velAlong (F 0) left)
    (ht : ∀ i, i ≠ 0 → velAlong (F i) left = velAlong (F i) right) {θ : ℝ} (hθ : 0 ≤ θ) {p : ℝ}
    (h1 : θ * reach γ p (F 0) left < 1) (h2 : θ * reach γ p (F 0) right < 1) {fuel : Nat} {s u : ℝ} {f : Tup d}
    (e : rotatedCall fuel γ F s left right = some (f, u)) :
    Admissible γ (holder γ θ (F 0) f left) ∧ Admissible γ (sharer γ θ (F 0) f right) :=
  (vacuum_keeps hγ h hl hr hv ht (le_max_left _ _) (le_max_right _ _) e).admissible hγ hl hr hθ (times_max h1 h2)

/-- The exact solver in one dimension: all gases. -/
theorem exact_positive_1d {γ : ℝ} (hγ : 1 < γ) (h3 : γ ≤ 3) {F : Frame 0} (h : Orthonormal F) {left right : Tup 0}
    (hl : Admissible γ left) (hr : Admissible γ right) {θ : ℝ} (hθ : 0 ≤ θ)
    (h1 : θ * reach γ (impact γ (F 0) left right) (F 0) left < 1)
    (h2 : θ * reach γ (impact γ (F 0) left right) (F 0) right < 1) {fuel : Nat} {s u : ℝ} {f : Tup 0}
    (e : rotatedCall fuel γ F s left right = some (f, u)) :
    Admissible γ (holder γ θ (F 0) f left) ∧ Admissible γ (sharer γ θ (F 0) f right) := by
  rcases lt_or_ge (velAlong (F 0) right - velAlong (F 0) left) (2 / (γ - 1) * (sound γ left + sound γ right)) with hv | hv
  · exact exact_positive hγ h3 h hl hr hv hθ h1 h2 e
  · exact exact_positive_receding hγ h hl hr hv (fun i hi => absurd (Fin.fin_one_eq_zero i) hi) hθ h1 h2 e

/-- **Finding.** In two dimensions a new solver takes the velocity across from the wrong side when a vacuum forms: no
part of a cell, however small, is safe from losing more energy than it has. -/
theorem exact_vacuum_fails (θ : ℝ) (hθ : 0 < θ) (h1 : θ ≤ 1) :
    ∃ left right : Tup 1, Admissible (7 / 5) left ∧ Admissible (7 / 5) right ∧ velAlong ![1, 0] left = 0 ∧
      velAlong ![1, 0] right = 10 ∧ sound (7 / 5) left = 1 ∧ sound (7 / 5) right = 1 ∧
      ∀ fuel, ∃ f u, rotatedCall fuel (7 / 5) 1 0 left right = some (f, u) ∧
        ¬ Admissible (7 / 5) (holder (7 / 5) θ ![1, 0] f left) := by
  have hγ : (1 : ℝ) < 7 / 5 := by norm_num
  have hL : AdmissiblePrim (⟨1, ![0, 0], 5 / 7⟩ : Tup 1) := ⟨by norm_num, by norm_num⟩
  have hR : AdmissiblePrim (⟨1, ![10, 100 / θ], 5 / 7⟩ : Tup 1) := ⟨by norm_num, by norm_num⟩
  set pl : Tup 1 := ⟨1, ![0, 0], 5 / 7⟩ with hpl
  set pr : Tup 1 := ⟨1, ![10, 100 / θ], 5 / 7⟩ with hpr
  have tl : toPrim (7 / 5) (toCons (7 / 5) pl) = pl := toPrim_toCons hγ pl hL.1 hL.2.le
  have tr : toPrim (7 / 5) (toCons (7 / 5) pr) = pr := toPrim_toCons hγ pr hR.1 hR.2.le
  have ql : pressure (7 / 5) (toCons (7 / 5) pl) = 5 / 7 := by
    simp [pressure, toCons, dynamicPressure, hpl]; norm_num
  have qr : pressure (7 / 5) (toCons (7 / 5) pr) = 5 / 7 := by
    simp [pressure, toCons, dynamicPressure, hpr]; ring
  refine ⟨toCons (7 / 5) pl, toCons (7 / 5) pr, ⟨by simp [toCons, hpl], by rw [ql]; norm_num⟩,
    ⟨by simp [toCons, hpr], by rw [qr]; norm_num⟩, ?_, ?_, ?_, ?_, ?_⟩
  · simp [velAlong, vel, toCons, hpl]
  · simp [velAlong, vel, toCons, hpr]
  · unfold sound
    rw [ql]
    simp [toCons, hpl]
  · unfold sound
    rw [qr]
    simp [toCons, hpr]
  · intro fuel
    have g1 : globalToNormal (1 : Frame 1) pl = pl := by
      apply Tup.ext' <;> intros <;> simp [globalToNormal, Matrix.one_apply]
    have g2 : globalToNormal (1 : Frame 1) pr = pr := by
      apply Tup.ext' <;> intros <;> simp [globalToNormal, Matrix.one_apply]
    have e1 : P3.of pl = ⟨1, 0, 5 / 7⟩ := rfl
    have e2 : P3.of pr = ⟨1, 10, 5 / 7⟩ := rfl
    have s1 : sound3 (7 / 5) ⟨1, 0, 5 / 7⟩ = 1 := by
      rw [sound3_eq ⟨by norm_num, by norm_num⟩]; unfold c; norm_num
    have s2 : sound3 (7 / 5) ⟨1, 10, 5 / 7⟩ = 1 := by
      rw [sound3_eq ⟨by norm_num, by norm_num⟩]; unfold c; norm_num
    have hf0 : ¬ pressureFn (7 / 5) ⟨1, 0, 5 / 7⟩ ⟨1, 10, 5 / 7⟩ 0 < 0 := by
      rw [vacuum_criterion hγ ⟨by norm_num, by norm_num⟩ ⟨by norm_num, by norm_num⟩]
      unfold c
      norm_num
    have hin : insideExpansion (7 / 5) (5 / 7) 5 = ⟨(5 / 6 : ℝ) ^ 5, 5 / 6, 5 / 7 * (5 / 6 : ℝ) ^ 7⟩ := by
      have hr : ((5 / 6 : ℝ) * (5 / 6) / (5 / 7) * (1 / (7 / 5))) ^ ((1 : ℝ) / (7 / 5 - 1)) = (5 / 6 : ℝ) ^ 5 := by
        rw [show (5 / 6 : ℝ) * (5 / 6) / (5 / 7) * (1 / (7 / 5)) = (5 / 6) ^ (2 : ℝ) by norm_num, ← Real.rpow_mul (by norm_num),
          show (2 : ℝ) * (1 / (7 / 5 - 1)) = ((5 : ℕ) : ℝ) by norm_num, Real.rpow_natCast]
      unfold insideExpansion
      dsimp only
      rw [show ((7 / 5 : ℝ) - 1) / (7 / 5 + 1) * 5 = 5 / 6 by norm_num, hr]
      ext <;> norm_num
    have hnv : nearVacuum (7 / 5) ⟨1, 0, 5 / 7⟩ ⟨1, 10, 5 / 7⟩ = ⟨(5 / 6 : ℝ) ^ 5, 5 / 6, 5 / 7 * (5 / 6 : ℝ) ^ 7⟩ := by
      unfold nearVacuum
      simp only [s1, s2]
      norm_num
      rw [show (5 / 7 : ℝ) = 5 / 7 from rfl] at hin
      exact hin.trans (by norm_num)
    refine ⟨_, _, by
      unfold rotatedCall call axis
      rw [tl, tr, g1, g2, e1, e2]
      simp only [if_pos (show (1 : ℝ) > 0 by norm_num), if_neg hf0, Option.map_some, Option.getD_none, hnv]
      rfl, ?_⟩
    intro hadm
    -- the energy is negative
    have hen : (holder (7 / 5) θ ![1, 0] (normalToGlobal (1 : Frame 1) (primFlux (7 / 5)
        (setPassive ⟨(5 / 6 : ℝ) ^ 5, 5 / 6, 5 / 7 * (5 / 6 : ℝ) ^ 7⟩ 0 pl pr))) (toCons (7 / 5) pl)).energy < 0 := by
      have hv0 : velAlong ![1, 0] (toCons (7 / 5) pl) = 0 := by simp [velAlong, vel, toCons, hpl]
      have hfl : (flux (7 / 5) ![1, 0] (toCons (7 / 5) pl)).energy = 0 := by simp [flux, hv0]
      have hfe : (normalToGlobal (1 : Frame 1) (primFlux (7 / 5)
          (setPassive ⟨(5 / 6 : ℝ) ^ 5, 5 / 6, 5 / 7 * (5 / 6 : ℝ) ^ 7⟩ 0 pl pr))).energy =
          5 / 6 * (5 / 7 * (5 / 6 : ℝ) ^ 7 * (5 / 2) + (5 / 6) ^ 5 * ((5 / 6 * (5 / 6) + 100 / θ * (100 / θ)) * (1 / 2))) +
            5 / 7 * (5 / 6 : ℝ) ^ 7 * (5 / 6) := by
        simp [normalToGlobal, primFlux, toCons, dynamicPressure, setPassive, hpr, Tup.scale, Fin.sum_univ_two]
        norm_num
      have hle : (toCons (7 / 5) pl).energy = 25 / 14 := by simp [toCons, dynamicPressure, hpl]; norm_num
      have hh : (holder (7 / 5) θ ![1, 0] (normalToGlobal (1 : Frame 1) (primFlux (7 / 5)
        (setPassive ⟨(5 / 6 : ℝ) ^ 5, 5 / 6, 5 / 7 * (5 / 6 : ℝ) ^ 7⟩ 0 pl pr))) (toCons (7 / 5) pl)).energy =
        (toCons (7 / 5) pl).energy + θ * ((flux (7 / 5) ![1, 0] (toCons (7 / 5) pl)).energy - (normalToGlobal (1 : Frame 1)
          (primFlux (7 / 5) (setPassive ⟨(5 / 6 : ℝ) ^ 5, 5 / 6, 5 / 7 * (5 / 6 : ℝ) ^ 7⟩ 0 pl pr))).energy) := rfl
      rw [hh, hfl, hfe, hle]
      have hθ2 : θ * (100 / θ * (100 / θ)) = 10000 / θ := by field_simp; norm_num
      have : 10000 ≤ 10000 / θ := by rw [le_div_iff₀ hθ]; linarith
      nlinarith
    have hmass := hadm.1
    have hpr' := hadm.2
    unfold pressure at hpr'
    have h5 : 0 < (7 / 5 : ℝ) - 1 := by norm_num
    have h6 := (pos_iff_pos_of_mul_pos hpr').1 h5
    have h7 : 0 ≤ (∑ i, (holder (7 / 5) θ ![1, 0] (normalToGlobal (1 : Frame 1) (primFlux (7 / 5)
        (setPassive ⟨(5 / 6 : ℝ) ^ 5, 5 / 6, 5 / 7 * (5 / 6 : ℝ) ^ 7⟩ 0 pl pr))) (toCons (7 / 5) pl)).mom i ^ 2) /
        (2 * (holder (7 / 5) θ ![1, 0] (normalToGlobal (1 : Frame 1) (primFlux (7 / 5)
        (setPassive ⟨(5 / 6 : ℝ) ^ 5, 5 / 6, 5 / 7 * (5 / 6 : ℝ) ^ 7⟩ 0 pl pr))) (toCons (7 / 5) pl)).mass) :=
      div_nonneg (Finset.sum_nonneg fun i _ => sq_nonneg _) (by linarith)
    linarith

/-! ### AUSM -/

/-- AUSM: the density remains positive. -/
theorem ausm_density_partial {γ : ℝ} (hγ : 1 < γ) {F : Frame d} {left right : Tup d}
    (hl : Admissible γ left) (hr : Admissible γ right) {θ : ℝ} (hθ : 0 ≤ θ)
    (h1 : θ * (|velAlong (F 0) left| + sound γ left) < 1) (h2 : θ * (|velAlong (F 0) right| + sound γ right) < 1) :
    0 < (holder γ θ (F 0) (upwind γ (ausm γ) F left right) left).mass ∧
    0 < (sharer γ θ (F 0) (upwind γ (ausm γ) F left right) right).mass := by
  obtain ⟨-, ul, cl⟩ := seen_spec hγ (F := F) hl
  obtain ⟨-, ur, cr⟩ := seen_spec hγ (F := F) hr
  obtain ⟨a1, a2, a3, a4, a5⟩ := ausm_split hγ (s := globalToNormal F (toPrim γ left)) (toPrim_admissible hγ hl)
  obtain ⟨b1, b2, b3, b4, b5⟩ := ausm_split hγ (s := globalToNormal F (toPrim γ right)) (toPrim_admissible hγ hr)
  have ml : (globalToNormal F (toPrim γ left)).mass = left.mass := by
    rw [toPrim_physical hγ (physical_of_admissible hl)]; rfl
  have mr : (globalToNormal F (toPrim γ right)).mass = right.mass := by
    rw [toPrim_physical hγ (physical_of_admissible hr)]; rfl
  have el : c γ (P3.of (globalToNormal F (toPrim γ left))) = sound γ left := cl
  have er : c γ (P3.of (globalToNormal F (toPrim γ right))) = sound γ right := cr
  rw [mom_along hγ hl, ml] at a1
  rw [mom_along hγ hl, ml, el] at a4 a5
  rw [mom_along hγ hr, mr] at b1
  rw [mom_along hγ hr, mr, er] at b4 b5
  have hml := hl.1
  have hmr := hr.1
  constructor
  · have e : (holder γ θ (F 0) (upwind γ (ausm γ) F left right) left).mass =
        left.mass + θ * (left.mass * velAlong (F 0) left - ((ausmPositive γ (globalToNormal F (toPrim γ left))).mass +
          (ausmNegative γ (globalToNormal F (toPrim γ right))).mass)) := rfl
    rw [e, ← a1]
    have h3 := mul_le_mul_of_nonneg_left a5 hθ
    have h4 := mul_nonneg hθ (neg_nonneg.2 b3)
    have h5 := mul_lt_mul_of_pos_right h1 hml
    nlinarith
  · have e : (sharer γ θ (F 0) (upwind γ (ausm γ) F left right) right).mass =
        right.mass + θ * (((ausmPositive γ (globalToNormal F (toPrim γ left))).mass +
          (ausmNegative γ (globalToNormal F (toPrim γ right))).mass) - right.mass * velAlong (F 0) right) := rfl
    rw [e, ← b1]
    have h3 := mul_le_mul_of_nonneg_left b4 hθ
    have h4 := mul_nonneg hθ a2
    have h5 := mul_lt_mul_of_pos_right h2 hmr
    nlinarith

/-- **Finding.** AUSM, half of the speed of sound against the normal: no part of a cell, however small, is sure to keep a
positive pressure, though its velocity and speed of sound are those of its neighbour. -/
theorem ausm_pressure_fails (θ : ℝ) (hθ : 0 < θ) (h1 : θ ≤ 1) :
    ∃ left right : Tup 0, Admissible (7 / 5) left ∧ Admissible (7 / 5) right ∧ sound (7 / 5) left = 1 ∧
      sound (7 / 5) right = 1 ∧ velAlong (fun _ => 1) left = -(1 / 2) ∧ velAlong (fun _ => 1) right = -(1 / 2) ∧
      ¬ Admissible (7 / 5) (sharer (7 / 5) θ (fun _ => 1) (upwind (7 / 5) (ausm (7 / 5)) 1 left right) right) := by
  have hγ : (1 : ℝ) < 7 / 5 := by norm_num
  set ε := θ / 1000 with hε
  have hε0 : 0 < ε := by positivity
  set pl : Tup 0 := ⟨1, fun _ => -(1 / 2), 5 / 7⟩ with hpl
  set pr : Tup 0 := ⟨ε, fun _ => -(1 / 2), 5 / 7 * ε⟩ with hpr
  have tl : toPrim (7 / 5) (toCons (7 / 5) pl) = pl := toPrim_toCons hγ pl (by norm_num [hpl]) (by norm_num [hpl])
  have tr : toPrim (7 / 5) (toCons (7 / 5) pr) = pr := toPrim_toCons hγ pr hε0 (by simp only [hpr]; positivity)
  have ql : pressure (7 / 5) (toCons (7 / 5) pl) = 5 / 7 := by
    simp [pressure, toCons, dynamicPressure, hpl]; norm_num
  have qr : pressure (7 / 5) (toCons (7 / 5) pr) = 5 / 7 * ε := by
    simp [pressure, toCons, dynamicPressure, hpr]; field_simp; norm_num
  have vr : velAlong (fun _ => 1) (toCons (7 / 5) pr) = -(1 / 2) := by
    simp [velAlong, vel, toCons, hpr]; field_simp
  have sl : speedOfSound (7 / 5) pl = 1 := by
    unfold speedOfSound; rw [if_neg (by norm_num [hpl])]; norm_num [hpl]
  have sr : speedOfSound (7 / 5) pr = 1 := by
    unfold speedOfSound
    rw [if_neg (by simp only [hpr, not_or, not_le]; exact ⟨hε0, by positivity⟩)]
    simp only [hpr]
    rw [show (7 / 5 : ℝ) * (5 / 7 * ε) / ε = 1 by field_simp, Real.sqrt_one]
  refine ⟨toCons (7 / 5) pl, toCons (7 / 5) pr, ⟨by simp [toCons, hpl], by rw [ql]; norm_num⟩,
    ⟨hε0, by rw [qr]; positivity⟩, ?_, ?_, ?_, vr, ?_⟩
  · unfold sound
    rw [ql]
    simp [toCons, hpl]
  · unfold sound
    rw [qr]
    show Real.sqrt (7 / 5 * (5 / 7 * ε) / ε) = 1
    rw [show (7 / 5 : ℝ) * (5 / 7 * ε) / ε = 1 by field_simp, Real.sqrt_one]
  · simp [velAlong, vel, toCons, hpl]
  · have one : ∀ i j, (1 : Frame 0) i j = 1 := fun i j => by
      rw [Fin.fin_one_eq_zero i, Fin.fin_one_eq_zero j]; rfl
    have g1 : globalToNormal (1 : Frame 0) pl = pl := by
      apply Tup.ext' <;> intros <;> simp [globalToNormal, hpl, one]
    have g2 : globalToNormal (1 : Frame 0) pr = pr := by
      apply Tup.ext' <;> intros <;> simp [globalToNormal, hpr, one]
    have hpos : ausmPositive (7 / 5) pl = ⟨1 / 16, fun _ => -(1 / 32) + 5 / 28, 21 / 128⟩ := by
      unfold ausmPositive ausmH
      simp only [sl]
      simp only [hpl]
      norm_num
      funext i
      rw [if_pos (Fin.fin_one_eq_zero i)]
    have hneg : ausmNegative (7 / 5) pr = ⟨-(9 / 16) * ε, fun _ => (9 / 32 + 15 / 28) * ε, -(189 / 128) * ε⟩ := by
      unfold ausmNegative ausmH
      simp only [sr]
      simp only [hpr]
      apply Tup.ext'
      · norm_num; ring
      · intro i
        rw [Fin.fin_one_eq_zero i]
        norm_num
        ring
      · norm_num; ring
    have hup : upwind (7 / 5) (ausm (7 / 5)) 1 (toCons (7 / 5) pl) (toCons (7 / 5) pr) =
        ⟨1 / 16 - 9 / 16 * ε, fun _ => -(1 / 32) + 5 / 28 + (9 / 32 + 15 / 28) * ε, 21 / 128 - 189 / 128 * ε⟩ := by
      unfold upwind ausm
      rw [tl, tr, g1, g2, hpos, hneg]
      apply Tup.ext' <;> intros <;> simp [normalToGlobal, Tup.add, one] <;> ring
    have hfl : flux (7 / 5) (fun _ => 1) (toCons (7 / 5) pr) = ⟨-(1 / 2) * ε, fun _ => (1 / 4 + 5 / 7) * ε, -(21 / 16) * ε⟩ := by
      unfold flux
      rw [vr, qr]
      apply Tup.ext' <;> intros <;> simp [toCons, dynamicPressure, hpr] <;> ring
    have hres : sharer (7 / 5) θ (fun _ => 1) (upwind (7 / 5) (ausm (7 / 5)) 1 (toCons (7 / 5) pl) (toCons (7 / 5) pr))
        (toCons (7 / 5) pr) = ⟨ε + θ * (1 - ε) / 16, fun _ => -(1 / 2) * ε + θ * (1 - ε) * (33 / 224),
          107 / 56 * ε + θ * (1 - ε) * (21 / 128)⟩ := by
      unfold sharer
      rw [hup, hfl]
      apply Tup.ext' <;> intros <;> simp [Tup.add, Tup.scale, Tup.sub, toCons, dynamicPressure, hpr] <;> ring
    rw [hres]
    rintro ⟨hm, hp⟩
    unfold pressure at hp
    have h6 := (pos_iff_pos_of_mul_pos hp).1 (by norm_num : (0 : ℝ) < 7 / 5 - 1)
    rw [show ∀ g : Fin (0 + 1) → ℝ, ∑ i, g i = g 0 from fun g => Fin.sum_univ_one g] at h6
    dsimp only at h6 hm
    rw [sub_pos, div_lt_iff₀ (by linarith)] at h6
    have hθε : θ = 1000 * ε := by rw [hε]; ring
    rw [hθε] at h6
    have hεle : ε ≤ 1 / 1000 := by rw [hε]; linarith
    have h7 : (-(1 / 2) * ε + 1000 * ε * (1 - ε) * (33 / 224)) ^ 2 =
        ε ^ 2 * (-(1 / 2) + 1000 * (1 - ε) * (33 / 224)) ^ 2 := by ring
    have h8 : (107 / 56 * ε + 1000 * ε * (1 - ε) * (21 / 128)) * (2 * (ε + 1000 * ε * (1 - ε) / 16)) =
        ε ^ 2 * ((107 / 56 + 1000 * (1 - ε) * (21 / 128)) * (2 * (1 + 1000 * (1 - ε) / 16))) := by ring
    rw [h7, h8] at h6
    have h9 := lt_of_mul_lt_mul_left h6 (by positivity)
    nlinarith

/-! ### Boundaries -/

/-- A wall, whatever the gas does in front of it. -/
theorem wall_positive {γ : ℝ} (hγ : 1 < γ) {F : Frame d} (h : Orthonormal F) {c : Tup d} (hc : Admissible γ c) {θ : ℝ}
    (hθ : 0 ≤ θ) (h1 : θ * (γ * |velAlong (F 0) c|) < 1) : Admissible γ (holder γ θ (F 0) (solidWall γ F c) c) :=
  holder_admissible hγ hc hθ h1 (wall_cone hγ h hc)

/-- A given state which comes in at least as fast as sound. -/
theorem inlet_positive {γ : ℝ} (hγ : 1 < γ) {F : Frame d} (h : Orthonormal F) {b c : Tup d} (hb : Admissible γ b)
    (hc : Admissible γ c) (hin : velAlong (F 0) b ≤ -sound γ b) {θ : ℝ} (hθ : 0 ≤ θ)
    (h1 : θ * (|velAlong (F 0) c| + sound γ c) < 1) : Admissible γ (holder γ θ (F 0) (supersonicInlet γ F b) c) :=
  holder_admissible hγ hc hθ h1 (inlet_cone hγ h hb hc hin)

/-- What leaves freely. -/
theorem outlet_positive {γ : ℝ} (hγ : 1 < γ) {F : Frame d} (h : Orthonormal F) {c : Tup d} (hc : Admissible γ c) (θ : ℝ) :
    holder γ θ (F 0) (supersonicOutlet γ F c) c = c := by
  unfold holder supersonicOutlet
  rw [fluxOfPrim_physical hγ h (physical_of_admissible hc)]
  apply Tup.ext' <;> intros <;> simp [Tup.add, Tup.scale, Tup.sub]

/-! ### The hypotheses can be met -/

/-- For any two states and any pressure there are parts which nothing crosses. -/
theorem part_exists (γ p : ℝ) (nu : Fin (d + 1) → ℝ) (l r : Tup d) :
    ∃ θ > 0, θ * reach γ p nu l < 1 ∧ θ * reach γ p nu r < 1 := by
  have h1 := reach_nonneg γ p nu l
  have h2 := reach_nonneg γ p nu r
  refine ⟨1 / (reach γ p nu l + reach γ p nu r + 1), by positivity, ?_, ?_⟩
  · rw [div_mul_eq_mul_div, div_lt_one (by linarith)]; linarith
  · rw [div_mul_eq_mul_div, div_lt_one (by linarith)]; linarith

/-- Two gases which meet, in two dimensions. -/
example : Admissible (7 / 5) (⟨1, ![1, 2], 5⟩ : Tup 1) ∧ Admissible (7 / 5) (⟨2, ![-2, 1], 5⟩ : Tup 1) ∧
    Orthonormal (1 : Frame 1) := by
  refine ⟨⟨by norm_num, ?_⟩, ⟨by norm_num, ?_⟩, by simp [Orthonormal]⟩ <;>
    simp [pressure, Fin.sum_univ_two] <;> norm_num

/-- They do not recede. -/
example : velAlong ((1 : Frame 1) 0) (⟨2, ![-2, 1], 5⟩ : Tup 1) - velAlong ((1 : Frame 1) 0) (⟨1, ![1, 2], 5⟩ : Tup 1) <
    2 / (7 / 5 - 1) * (sound (7 / 5) (⟨1, ![1, 2], 5⟩ : Tup 1) + sound (7 / 5) (⟨2, ![-2, 1], 5⟩ : Tup 1)) := by
  have h1 : velAlong ((1 : Frame 1) 0) (⟨2, ![-2, 1], 5⟩ : Tup 1) = -1 := by
    simp [velAlong, vel, Matrix.one_apply, Fin.sum_univ_two]
  have h2 : velAlong ((1 : Frame 1) 0) (⟨1, ![1, 2], 5⟩ : Tup 1) = 1 := by
    simp [velAlong, vel, Matrix.one_apply, Fin.sum_univ_two]
  rw [h1, h2]
  have h3 : 0 ≤ sound (7 / 5) (⟨1, ![1, 2], 5⟩ : Tup 1) := Real.sqrt_nonneg _
  have h4 : 0 ≤ sound (7 / 5) (⟨2, ![-2, 1], 5⟩ : Tup 1) := Real.sqrt_nonneg _
  have h5 : 0 ≤ 2 / (7 / 5 - 1) * (sound (7 / 5) (⟨1, ![1, 2], 5⟩ : Tup 1) + sound (7 / 5) (⟨2, ![-2, 1], 5⟩ : Tup 1)) :=
    mul_nonneg (by norm_num) (add_nonneg h3 h4)
  linarith

end MiniCFD.Positive
