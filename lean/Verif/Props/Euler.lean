import Verif.Lemmas.Euler
import Mathlib.Tactic.NormNum

/-! C18-C25 and C54 for the ideal-gas solvers, in any number of space dimensions. -/

namespace MiniCFD.Euler
open MiniCFD.Spec.Euler

variable {d : Nat}

/-! ### C20: conversions -/

/-- Conversion computes the textbook primitive variables. -/
theorem toPrim_spec {γ : ℝ} (hγ : 1 < γ) (c : Tup d) (h : Physical γ c) :
    toPrim γ c = ⟨c.mass, vel c, pressure γ c⟩ := toPrim_physical hγ h

theorem toCons_toPrim {γ : ℝ} (hγ : 1 < γ) (c : Tup d) (h : Physical γ c) :
    toCons γ (toPrim γ c) = c := by
  rw [toPrim_physical hγ h]
  have hm := h.1.ne'
  have hg : γ - 1 ≠ 0 := by linarith
  unfold toCons dynamicPressure
  simp only [vel]
  rw [dynamic_vel c hm]
  apply Tup.ext
  · rfl
  · funext i; exact div_mul_cancel₀ _ hm
  · show pressure γ c * (1 / (γ - 1)) + (∑ i, c.mom i ^ 2) / (2 * c.mass) = c.energy
    have e : pressure γ c * (1 / (γ - 1)) = c.energy - (∑ i, c.mom i ^ 2) / (2 * c.mass) := by
      unfold pressure
      field_simp
    rw [e]; ring

theorem toPrim_toCons {γ : ℝ} (hγ : 1 < γ) (s : Tup d) (h1 : 0 < s.mass) (h2 : 0 ≤ s.energy) :
    toPrim γ (toCons γ s) = s := by
  have hg : γ - 1 ≠ 0 := by linarith
  have hm := h1.ne'
  have hsum : (∑ i, (s.mom i * s.mass) ^ 2) / (2 * s.mass) = dynamicPressure s := by
    unfold dynamicPressure
    have : ∑ i, (s.mom i * s.mass) ^ 2 = (∑ i, s.mom i * s.mom i) * (s.mass * s.mass) := by
      rw [Finset.sum_mul]
      exact Finset.sum_congr rfl fun i _ => by ring
    rw [this]
    field_simp
  have hp : pressure γ (toCons γ s) = s.energy := by
    unfold pressure toCons
    simp only
    rw [hsum]
    field_simp
    ring
  have hphys : Physical γ (toCons γ s) := ⟨h1, by rw [hp]; exact h2⟩
  rw [toPrim_physical hγ hphys, hp]
  apply Tup.ext
  · rfl
  · funext i
    exact mul_div_cancel_right₀ _ hm
  · rfl

/-- Whatever is fed in, density and pressure that come out are not negative. -/
theorem toPrim_nonneg (γ : ℝ) (c : Tup d) : 0 ≤ (toPrim γ c).mass ∧ 0 ≤ (toPrim γ c).energy := by
  unfold toPrim
  simp only
  split
  · exact setZero_nonneg _
  · exact setZero_nonneg _

/-- Negative density, negative energy or negative pressure gives the all-zero state. -/
theorem toPrim_vacuum {γ : ℝ} (hγ : 1 < γ) (c : Tup d)
    (h : c.mass < 0 ∨ c.energy < 0 ∨ (0 < c.mass ∧ pressure γ c < 0)) : toPrim γ c = Tup.zero := by
  have hz : ∀ s : Tup d, setZeroIfNegative s = Tup.zero → s = c → toPrim γ c = Tup.zero := by
    intro s hs e
    subst e
    unfold toPrim
    rw [hs]
    simp [Tup.zero]
  rcases h with h | h | ⟨h1, h2⟩
  · apply hz c _ rfl
    unfold setZeroIfNegative
    simp [if_pos h, Tup.zero]
  · apply hz c _ rfl
    unfold setZeroIfNegative
    by_cases h' : c.mass < 0
    · simp [if_pos h', Tup.zero]
    · simp only [if_neg h', if_pos h]
  · by_cases he : c.energy < 0
    · apply hz c _ rfl
      unfold setZeroIfNegative
      simp only [if_neg (not_lt.2 h1.le), if_pos he]
    · unfold toPrim
      rw [setZero_id h1.le (not_lt.1 he)]
      simp only [if_pos h1.ne', dynamicPressure]
      rw [dynamic_vel c h1.ne']
      have e : (c.energy - (∑ i, c.mom i ^ 2) / (2 * c.mass)) * (γ - 1) = pressure γ c := by
        unfold pressure; ring
      rw [e]
      unfold setZeroIfNegative
      simp only [if_neg (not_lt.2 h1.le), if_pos h2]

/-- Density exactly zero is not treated as vacuum: the result has pressure and velocity. -/
theorem toPrim_zero_density (γ : ℝ) :
    ∃ c : Tup d, c.mass = 0 ∧ (toPrim γ c).mom 0 ≠ 0 ∧ (toPrim γ c).energy ≠ 0 := by
  refine ⟨⟨0, fun _ => 1, 1⟩, rfl, ?_, ?_⟩
  · rw [toPrim, setZero_id (by simp) (by simp)]; simp
  · rw [toPrim, setZero_id (by simp) (by simp)]; simp

example : Physical (d := 2) 1.4 ⟨2, ![2, 0, 4], 10⟩ := by
  constructor
  · norm_num
  · norm_num [pressure, Fin.sum_univ_succ]

/-! ### C21: rotation -/

theorem normalToGlobal_globalToNormal {F : Frame d} (h : Orthonormal F) (s : Tup d) :
    normalToGlobal F (globalToNormal F s) = s := by
  unfold normalToGlobal globalToNormal
  apply Tup.ext
  · rfl
  · funext j; exact back_mom h s.mom j
  · rfl

theorem globalToNormal_normalToGlobal {F : Frame d} (h : Orthonormal F) (s : Tup d) :
    globalToNormal F (normalToGlobal F s) = s := by
  have h' : Orthonormal F.transpose := by
    unfold Orthonormal; rw [Matrix.transpose_transpose]; exact mul_eq_one_comm.1 h
  exact normalToGlobal_globalToNormal h' s

/-- The rotated flux of one state is the flux matrix of that state times the normal. -/
theorem flux_matrix_normal {γ : ℝ} (hγ : 1 < γ) {F : Frame d} (h : Orthonormal F) (c : Tup d)
    (hc : Physical γ c) :
    fluxOfPrim γ F (toPrim γ c) =
      ⟨∑ k, (fluxMatrix γ c k).mass * F 0 k, fun i => ∑ k, (fluxMatrix γ c k).mom i * F 0 k,
       ∑ k, (fluxMatrix γ c k).energy * F 0 k⟩ := by
  rw [fluxOfPrim_physical hγ h hc]
  unfold flux fluxMatrix
  rw [toPrim_physical hγ hc]
  have hm := hc.1.ne'
  simp only [Tup.mk.injEq]
  refine ⟨?_, ?_, ?_⟩
  · unfold velAlong vel
    rw [Finset.mul_sum]
    exact Finset.sum_congr rfl fun k _ => by field_simp
  · funext i
    unfold velAlong
    have e : ∀ k, (if i = k then c.mom i * vel c k + pressure γ c else c.mom i * vel c k) * F 0 k =
        c.mom i * (vel c k * F 0 k) + (if i = k then pressure γ c * F 0 k else 0) := by
      intro k; split <;> ring
    simp only [e]
    rw [Finset.sum_add_distrib, ← Finset.mul_sum, Finset.sum_ite_eq Finset.univ i]
    simp
  · unfold velAlong
    rw [Finset.mul_sum]
    exact Finset.sum_congr rfl fun k _ => by ring

/-- A rotated frame with no axis along a coordinate axis. -/
example : Orthonormal (d := 2)
    !![1/3, 2/3, 2/3; 2/3, 1/3, -2/3; -2/3, 2/3, -1/3] := by
  unfold Orthonormal
  ext i j
  fin_cases i <;> fin_cases j <;>
    norm_num [Matrix.mul_apply, Fin.sum_univ_succ, Matrix.transpose_apply]

/-- For a state with negative density the two disagree: the flux matrix uses the raw momentum, the
rotated flux is zero. -/
theorem flux_matrix_clipped :
    ∃ (γ : ℝ) (F : Frame 0) (c : Tup 0), 1 < γ ∧ Orthonormal F ∧
      (fluxOfPrim γ F (toPrim γ c)).mass ≠ ∑ k, (fluxMatrix γ c k).mass * F 0 k := by
  refine ⟨2, 1, ⟨-1, fun _ => 1, 1⟩, by norm_num, by unfold Orthonormal; simp, ?_⟩
  have e : toPrim 2 (⟨-1, fun _ => 1, 1⟩ : Tup 0) = Tup.zero :=
    toPrim_vacuum (by norm_num) _ (Or.inl (by norm_num))
  rw [e]
  simp [fluxOfPrim, normalToGlobal, primFlux, globalToNormal, Tup.scale, toCons, Tup.zero,
    fluxMatrix]

/-! ### C18: reversal -/

theorem sc_admissible {γ : ℝ} (hγ : 1 < γ) {F : Frame d} {c : Tup d} (h : Admissible γ c) :
    0 < (sc (globalToNormal F (toPrim γ c))).rho ∧ 0 < (sc (globalToNormal F (toPrim γ c))).p :=
  toPrim_admissible hγ h

theorem sc_u {γ : ℝ} (hγ : 1 < γ) {F : Frame d} {c : Tup d} (h : Admissible γ c) :
    (sc (globalToNormal F (toPrim γ c))).u = velAlong (F 0) c := by
  rw [toPrim_physical hγ (physical_of_admissible h)]
  rfl

theorem sc_a {γ : ℝ} (hγ : 1 < γ) {F : Frame d} {c : Tup d} (h : Admissible γ c) :
    aOf γ (sc (globalToNormal F (toPrim γ c))) = sound γ c := by
  rw [← sound_toPrim hγ h]
  rfl

theorem ausm_reversal {γ : ℝ} (_hγ : 1 < γ) {F F' : Frame d} (h : Orthonormal F)
    (h' : Orthonormal F') (hn : ∀ j, F' 0 j = -F 0 j) (left right : Tup d)
    (_hl : Admissible γ left) (_hr : Admissible γ right) :
    upwind γ (ausm γ) F' right left = Tup.scale (-1) (upwind γ (ausm γ) F left right) :=
  reversal_of_coef (ausm_assemble γ) h h' hn left right (ausmCoef_flip γ _ _)

/-- HLLC is conservative as long as the two states do not run into each other faster than the sum
of their speeds of sound. -/
theorem hllc_reversal {γ : ℝ} (hγ : 1 < γ) {F F' : Frame d} (h : Orthonormal F)
    (h' : Orthonormal F') (hn : ∀ j, F' 0 j = -F 0 j) (left right : Tup d)
    (hl : Admissible γ left) (hr : Admissible γ right)
    (hw : velAlong (F 0) left - velAlong (F 0) right < sound γ left + sound γ right) :
    upwind γ (hllc γ) F' right left = Tup.scale (-1) (upwind γ (hllc γ) F left right) := by
  obtain ⟨l1, l2⟩ := sc_admissible (F := F) hγ hl
  obtain ⟨r1, r2⟩ := sc_admissible (F := F) hγ hr
  refine reversal_of_coef (hllc_assemble γ) h h' hn left right (hllcCoef_flip hγ l1 l2 r1 r2 ?_)
  rintro ⟨a1, a2⟩
  rw [← sc_u hγ hl, ← sc_u hγ hr, ← sc_a (F := F) hγ hl, ← sc_a (F := F) hγ hr] at hw
  generalize sc (globalToNormal F (toPrim γ left)) = l at *
  generalize sc (globalToNormal F (toPrim γ right)) = r at *
  have hql := getQ_pos (p := pEst γ l r) hγ l2
  have hqr := getQ_pos (p := pEst γ l r) hγ r2
  have hal := (aOf_sq hγ l1 l2).1
  have har := (aOf_sq hγ r1 r2).1
  unfold sL at a1
  unfold sR at a2
  nlinarith

/-- Two streams meeting head-on at twice the speed of sound: both one-sided branches apply, the
first one is taken from either side, and what leaves one cell does not enter the other. -/
theorem hllc_collision :
    ∃ (γ : ℝ) (F F' : Frame 0) (left right : Tup 0), 1 < γ ∧ Orthonormal F ∧ Orthonormal F' ∧
      (∀ j, F' 0 j = -F 0 j) ∧ Admissible γ left ∧ Admissible γ right ∧
      upwind γ (hllc γ) F' right left ≠ Tup.scale (-1) (upwind γ (hllc γ) F left right) := by
  have hγ : (1 : ℝ) < 7 / 5 := by norm_num
  have al : Admissible (d := 0) (7 / 5) ⟨1, fun _ => 2, 2 + 25 / 14⟩ := by
    constructor
    · norm_num
    · norm_num [pressure]
  have ar : Admissible (d := 0) (7 / 5) ⟨1, fun _ => -2, 2 + 25 / 14⟩ := by
    constructor
    · norm_num
    · norm_num [pressure]
  have hF : Orthonormal (Matrix.of fun _ _ => 1 : Frame 0) := by
    unfold Orthonormal; ext i j; rw [Matrix.mul_apply]; fin_cases i; fin_cases j; simp
  have hF' : Orthonormal (Matrix.of fun _ _ => -1 : Frame 0) := by
    unfold Orthonormal; ext i j; rw [Matrix.mul_apply]; fin_cases i; fin_cases j; simp
  refine ⟨7 / 5, Matrix.of fun _ _ => 1, Matrix.of fun _ _ => -1, ⟨1, fun _ => 2, 2 + 25 / 14⟩, ⟨1, fun _ => -2, 2 + 25 / 14⟩, hγ, hF, hF',
    ?_, al, ar, ?_⟩
  · intro j; simp
  · intro e
    have e := congrArg Tup.mass e
    unfold upwind at e
    rw [hllc_assemble, hllc_assemble, assemble_global hF, assemble_global hF',
      sc_rotated hF, sc_rotated hF, sc_rotated hF', sc_rotated hF',
      toPrim_physical hγ (physical_of_admissible al),
      toPrim_physical hγ (physical_of_admissible ar)] at e
    have hp1 : pressure (7 / 5) (⟨1, fun _ => 2, 2 + 25 / 14⟩ : Tup 0) = 5 / 7 := by
      norm_num [pressure]
    have hp2 : pressure (7 / 5) (⟨1, fun _ => -2, 2 + 25 / 14⟩ : Tup 0) = 5 / 7 := by
      norm_num [pressure]
    have hv1 : ∀ i, vel (⟨1, fun _ => 2, 2 + 25 / 14⟩ : Tup 0) i = 2 := by intro i; norm_num [vel]
    have hv2 : ∀ i, vel (⟨1, fun _ => -2, 2 + 25 / 14⟩ : Tup 0) i = -2 := by intro i; norm_num [vel]
    simp only [normalVelocity, hp1, hp2, hv1, hv2, assembleGlobal, Tup.scale,
      Fin.sum_univ_succ, Fin.sum_univ_zero, Matrix.of_apply] at e
    norm_num at e
    -- both calls see streams at speed 2 meeting, with unit speed of sound
    have key : hllcCoef (7 / 5) ⟨1, 2, 4, 5 / 7⟩ ⟨1, -2, 4, 5 / 7⟩ =
        fluxLeft (7 / 5) ⟨1, 2, 4, 5 / 7⟩ := by
      unfold hllcCoef
      rw [if_pos]
      have ha : ∀ u : ℝ, aOf (7 / 5) ⟨1, u, 4, 5 / 7⟩ = 1 := by
        intro u; unfold aOf; rw [if_neg (by norm_num)]; norm_num
      have hpe : pEst (7 / 5) ⟨1, 2, 4, 5 / 7⟩ ⟨1, -2, 4, 5 / 7⟩ = 19 / 7 := by
        unfold pEst; simp only [ha]; norm_num
      unfold sL
      rw [hpe, ha]
      unfold getQ
      rw [if_neg (by norm_num)]
      have : Real.sqrt (1 + (7 / 5 + 1) / 2 * (19 / 7 / (5 / 7) - 1) / (7 / 5)) ≤ 2 := by
        rw [Real.sqrt_le_left (by norm_num)]; norm_num
      show (0 : ℝ) ≤ 2 - 1 * _
      linarith
    rw [key] at e
    norm_num [fluxLeft] at e

/-- The unrotated solvers: swapping and mirroring the states negates and mirrors the flux. -/
theorem ausm_mirror {γ : ℝ} (_hγ : 1 < γ) (l r : Tup d) (_hl : AdmissiblePrim l)
    (_hr : AdmissiblePrim r) :
    ausm γ (mirror r) (mirror l) = Tup.scale (-1) (mirror (ausm γ l r)) := by
  have hs : ∀ s : Tup d, sc (mirror s) = (sc s).flip := by
    intro s
    unfold sc mirror Sc.flip
    simp only [if_true, Sc.mk.injEq, true_and, and_true]
    exact Finset.sum_congr rfl fun i _ => by split <;> ring
  rw [ausm_assemble, ausm_assemble, hs, hs, ausmCoef_flip]
  unfold assemble Coef.flip Tup.scale mirror
  simp only [Tup.mk.injEq]
  refine ⟨by ring, ?_, by ring⟩
  funext i
  simp only [Pi.smul_apply, smul_eq_mul]
  split <;> ring

theorem hllc_mirror {γ : ℝ} (hγ : 1 < γ) (l r : Tup d) (hl : AdmissiblePrim l)
    (hr : AdmissiblePrim r)
    (hw : l.mom 0 - r.mom 0 < speedOfSound γ l + speedOfSound γ r) :
    hllc γ (mirror r) (mirror l) = Tup.scale (-1) (mirror (hllc γ l r)) := by
  have hs : ∀ s : Tup d, sc (mirror s) = (sc s).flip := by
    intro s
    unfold sc mirror Sc.flip
    simp only [if_true, Sc.mk.injEq, true_and, and_true]
    exact Finset.sum_congr rfl fun i _ => by split <;> ring
  have hq1 := getQ_pos (p := pEst γ (sc l) (sc r)) hγ hl.2
  have hq2 := getQ_pos (p := pEst γ (sc l) (sc r)) hγ hr.2
  have hal : 0 < speedOfSound γ l := (aOf_sq (s := sc l) hγ hl.1 hl.2).1
  have har : 0 < speedOfSound γ r := (aOf_sq (s := sc r) hγ hr.1 hr.2).1
  have hnot : ¬ (0 ≤ sL γ (sc l) (sc r) ∧ sR γ (sc l) (sc r) ≤ 0) := by
    rintro ⟨a1, a2⟩
    have b1 : 0 ≤ l.mom 0 - speedOfSound γ l * getQ γ (pEst γ (sc l) (sc r)) l.energy := a1
    have b2 : r.mom 0 + speedOfSound γ r * getQ γ (pEst γ (sc l) (sc r)) r.energy ≤ 0 := a2
    nlinarith
  rw [hllc_assemble, hllc_assemble, hs, hs, hllcCoef_flip hγ hl.1 hl.2 hr.1 hr.2 hnot]
  unfold assemble Coef.flip Tup.scale mirror
  simp only [Tup.mk.injEq]
  refine ⟨by ring, ?_, by ring⟩
  funext i
  simp only [Pi.smul_apply, smul_eq_mul]
  split <;> ring

/-! ### C19: consistency -/

theorem ausm_consistent {γ : ℝ} (hγ : 1 < γ) {F : Frame d} (h : Orthonormal F) (c : Tup d)
    (hc : Admissible γ c) : upwind γ (ausm γ) F c c = flux γ (F 0) c := by
  rw [← fluxOfPrim_physical hγ h (physical_of_admissible hc), fluxOfPrim_eq h]
  unfold upwind
  rw [ausm_assemble, assemble_global h]
  obtain ⟨h1, h2⟩ := sc_admissible (F := F) hγ hc
  generalize sc (globalToNormal F (toPrim γ c)) = s at *
  obtain ⟨ha, -⟩ := aOf_sq hγ h1 h2
  have e1 := mach_sum (s.u / aOf γ s)
  have e2 := pres_sum s.p (s.u / aOf γ s)
  have e3 := rho_h hγ h1 h2
  have e4 : aOf γ s * (s.u / aOf γ s) = s.u := by field_simp
  unfold assembleGlobal ausmCoef fluxLeft
  simp only [Tup.mk.injEq]
  refine ⟨?_, ?_, ?_⟩
  · linear_combination s.rho * aOf γ s * e1 + s.rho * e4
  · funext j
    linear_combination (s.rho * aOf γ s * e1 + s.rho * e4) * (toPrim γ c).mom j + F 0 j * e2
  · linear_combination s.rho * aOf γ s * hOf γ s * e1 + s.rho * hOf γ s * e4 + s.u * e3

theorem hllc_consistent {γ : ℝ} (hγ : 1 < γ) {F : Frame d} (h : Orthonormal F) (c : Tup d)
    (hc : Admissible γ c) : upwind γ (hllc γ) F c c = flux γ (F 0) c := by
  rw [← fluxOfPrim_physical hγ h (physical_of_admissible hc), fluxOfPrim_eq h]
  unfold upwind
  rw [hllc_assemble, assemble_global h]
  obtain ⟨h1, h2⟩ := sc_admissible (F := F) hγ hc
  generalize sc (globalToNormal F (toPrim γ c)) = s at *
  rcases hllcCoef_same hγ h1 h2 with e | e
  · rw [e]
  · rw [e]
    unfold assembleGlobal fluxRight fluxLeft
    simp only [Tup.mk.injEq, true_and, and_true]
    funext j; ring

/-! ### C22: supersonic upwinding -/

theorem ausm_supersonic_right {γ : ℝ} (hγ : 1 < γ) {F : Frame d} (h : Orthonormal F)
    (left right : Tup d) (hl : Admissible γ left) (hr : Admissible γ right)
    (sl : sound γ left ≤ velAlong (F 0) left) (sr : sound γ right ≤ velAlong (F 0) right) :
    upwind γ (ausm γ) F left right = flux γ (F 0) left := by
  rw [← fluxOfPrim_physical hγ h (physical_of_admissible hl), fluxOfPrim_eq h]
  unfold upwind
  rw [ausm_assemble, assemble_global h]
  obtain ⟨l1, l2⟩ := sc_admissible (F := F) hγ hl
  obtain ⟨r1, r2⟩ := sc_admissible (F := F) hγ hr
  rw [ausm_supersonic hγ l1 l2 r1 r2 (by rw [sc_a hγ hl, sc_u hγ hl]; exact sl)
    (by rw [sc_a hγ hr, sc_u hγ hr]; exact sr)]
  unfold assembleGlobal fluxLeft
  simp only [Tup.mk.injEq, true_and, and_true]
  funext j; ring

/-- Reversing one axis twice: the frame with the opposite normal. -/
def opposite (F : Frame d) : Frame d := fun i j => if i = 0 then -F i j else F i j

theorem opposite_orthonormal {F : Frame d} (h : Orthonormal F) : Orthonormal (opposite F) := by
  unfold Orthonormal at *
  ext i j
  have e := congrFun (congrFun h i) j
  rw [Matrix.mul_apply] at e ⊢
  simp only [Matrix.transpose_apply, Matrix.one_apply] at e ⊢
  unfold opposite
  by_cases hi : i = 0
  · by_cases hj : j = 0
    · simp only [if_pos hi, if_pos hj, neg_mul_neg]; exact e
    · simp only [if_pos hi, if_neg hj, neg_mul, Finset.sum_neg_distrib]
      rw [e, if_neg (by rintro rfl; exact hj hi)]; simp
  · by_cases hj : j = 0
    · simp only [if_neg hi, if_pos hj, mul_neg, Finset.sum_neg_distrib]
      rw [e, if_neg (by rintro rfl; exact hi hj)]; simp
    · simp only [if_neg hi, if_neg hj]; exact e

theorem velAlong_neg {nu nu' : Fin (d + 1) → ℝ} (hn : ∀ j, nu' j = -nu j) (c : Tup d) :
    velAlong nu' c = -velAlong nu c := by
  unfold velAlong
  simp only [hn, mul_neg, Finset.sum_neg_distrib]

theorem flux_neg {γ : ℝ} {nu nu' : Fin (d + 1) → ℝ} (hn : ∀ j, nu' j = -nu j) (c : Tup d) :
    Tup.scale (-1) (flux γ nu' c) = flux γ nu c := by
  unfold flux Tup.scale
  rw [velAlong_neg hn]
  simp only [Tup.mk.injEq]
  refine ⟨by ring, ?_, by ring⟩
  funext i
  simp only [Pi.smul_apply, smul_eq_mul, hn]; ring

theorem scale_neg_neg (s : Tup d) : Tup.scale (-1) (Tup.scale (-1) s) = s := by
  unfold Tup.scale
  apply Tup.ext
  · simp
  · funext i; simp
  · simp

theorem ausm_supersonic_left {γ : ℝ} (hγ : 1 < γ) {F : Frame d} (h : Orthonormal F)
    (left right : Tup d) (hl : Admissible γ left) (hr : Admissible γ right)
    (sl : velAlong (F 0) left ≤ -sound γ left) (sr : velAlong (F 0) right ≤ -sound γ right) :
    upwind γ (ausm γ) F left right = flux γ (F 0) right := by
  have hn : ∀ j, opposite F 0 j = -F 0 j := fun j => by simp [opposite]
  have e := ausm_reversal hγ h (opposite_orthonormal h) hn left right hl hr
  have s := ausm_supersonic_right hγ (opposite_orthonormal h) right left hr hl
    (by rw [velAlong_neg hn]; linarith) (by rw [velAlong_neg hn]; linarith)
  rw [e] at s
  rw [← flux_neg hn right, ← s, scale_neg_neg]

theorem pEst_pvrs {γ : ℝ} (hγ : 1 < γ) {F : Frame d} {l r : Tup d} (hl : Admissible γ l)
    (hr : Admissible γ r) :
    pEst γ (sc (globalToNormal F (toPrim γ l))) (sc (globalToNormal F (toPrim γ r))) =
      pvrs γ (F 0) l r := by
  unfold pEst pvrs
  rw [sc_a hγ hl, sc_a hγ hr, sc_u hγ hl, sc_u hγ hr, toPrim_physical hγ (physical_of_admissible hl),
    toPrim_physical hγ (physical_of_admissible hr)]
  show max 0 ((pressure γ l + pressure γ r - (velAlong (F 0) r - velAlong (F 0) l) *
    ((l.mass + r.mass) / 2) * ((sound γ l + sound γ r) / 2)) / 2) = _
  congr 1; ring

theorem getQ_acoustic {γ : ℝ} (hγ : 1 < γ) (p : ℝ) {c : Tup d} (h : Admissible γ c) :
    sound γ c * getQ γ p (pressure γ c) = acoustic γ p c := by
  unfold getQ acoustic
  have : (γ + 1) / 2 * (p / pressure γ c - 1) / γ = (γ + 1) / (2 * γ) * (p / pressure γ c - 1) := by
    have h1 : γ ≠ 0 := by linarith
    have h2 := h.2.ne'
    field_simp
  rw [this]

theorem sL_spec {γ : ℝ} (hγ : 1 < γ) {F : Frame d} {l r : Tup d} (hl : Admissible γ l)
    (hr : Admissible γ r) :
    sL γ (sc (globalToNormal F (toPrim γ l))) (sc (globalToNormal F (toPrim γ r))) =
      velAlong (F 0) l - acoustic γ (pvrs γ (F 0) l r) l := by
  unfold sL
  rw [pEst_pvrs hγ hl hr, sc_a hγ hl, sc_u hγ hl, ← getQ_acoustic hγ _ hl,
    toPrim_physical hγ (physical_of_admissible hl)]
  rfl

theorem sR_spec {γ : ℝ} (hγ : 1 < γ) {F : Frame d} {l r : Tup d} (hl : Admissible γ l)
    (hr : Admissible γ r) :
    sR γ (sc (globalToNormal F (toPrim γ l))) (sc (globalToNormal F (toPrim γ r))) =
      velAlong (F 0) r + acoustic γ (pvrs γ (F 0) l r) r := by
  unfold sR
  rw [pEst_pvrs hγ hl hr, sc_a hγ hr, sc_u hγ hr, ← getQ_acoustic hγ _ hr,
    toPrim_physical hγ (physical_of_admissible hr)]
  rfl

/-- If the left acoustic wave does not move left, HLLC returns the flux of the left state. -/
theorem hllc_supersonic_right {γ : ℝ} (hγ : 1 < γ) {F : Frame d} (h : Orthonormal F)
    (left right : Tup d) (hl : Admissible γ left) (hr : Admissible γ right)
    (s : acoustic γ (pvrs γ (F 0) left right) left ≤ velAlong (F 0) left) :
    upwind γ (hllc γ) F left right = flux γ (F 0) left := by
  rw [← fluxOfPrim_physical hγ h (physical_of_admissible hl), fluxOfPrim_eq h]
  unfold upwind
  rw [hllc_assemble, assemble_global h]
  unfold hllcCoef
  rw [if_pos (by rw [sL_spec hγ hl hr]; linarith)]
  unfold assembleGlobal fluxLeft
  simp only [Tup.mk.injEq, true_and, and_true]
  funext j; ring

/-- If both states move left and the right acoustic wave does not move right, HLLC returns the
flux of the right state. -/
theorem hllc_supersonic_left {γ : ℝ} (hγ : 1 < γ) {F : Frame d} (h : Orthonormal F)
    (left right : Tup d) (hl : Admissible γ left) (hr : Admissible γ right)
    (s0 : velAlong (F 0) left < sound γ left)
    (s : velAlong (F 0) right ≤ -acoustic γ (pvrs γ (F 0) left right) right) :
    upwind γ (hllc γ) F left right = flux γ (F 0) right := by
  rw [← fluxOfPrim_physical hγ h (physical_of_admissible hr), fluxOfPrim_eq h]
  unfold upwind
  rw [hllc_assemble, assemble_global h]
  obtain ⟨l1, l2⟩ := sc_admissible (F := F) hγ hl
  unfold hllcCoef
  rw [if_neg, if_pos (by rw [sR_spec hγ hl hr]; linarith)]
  · unfold assembleGlobal fluxRight fluxLeft
    simp only [Tup.mk.injEq, true_and, and_true]
    funext j; ring
  · rw [sL_spec hγ hl hr, ← getQ_acoustic hγ _ hl]
    have hq := getQ_pos (p := pvrs γ (F 0) left right) hγ hl.2
    have hs : 0 < sound γ left := by
      rw [← sc_a (F := F) hγ hl]; exact (aOf_sq hγ l1 l2).1
    nlinarith

/-- Supersonic expansion: left state at Mach 2, right at Mach 3. -/
example : acoustic (d := 0) (7/5) 0 ⟨1, fun _ => 2, 2 + 25/14⟩ ≤
    velAlong (fun _ => 1) (⟨1, fun _ => 2, 2 + 25/14⟩ : Tup 0) := by
  have hp : pressure (7 / 5) (⟨1, fun _ => 2, 2 + 25 / 14⟩ : Tup 0) = 5 / 7 := by
    norm_num [pressure]
  have hs : sound (7 / 5) (⟨1, fun _ => 2, 2 + 25 / 14⟩ : Tup 0) = 1 := by
    unfold sound; rw [hp]; norm_num
  unfold acoustic
  rw [hs, hp, if_pos (by norm_num)]
  norm_num [velAlong, vel]

/-! ### C23: stationary contact -/

theorem hllc_contact {γ : ℝ} (hγ : 1 < γ) {F : Frame d} (h : Orthonormal F) (left right : Tup d)
    (hl : Admissible γ left) (hr : Admissible γ right) (ul : velAlong (F 0) left = 0)
    (ur : velAlong (F 0) right = 0) (hp : pressure γ left = pressure γ right) :
    upwind γ (hllc γ) F left right = ⟨0, fun j => pressure γ left * F 0 j, 0⟩ := by
  unfold upwind
  rw [hllc_assemble, assemble_global h]
  obtain ⟨l1, l2⟩ := sc_admissible (F := F) hγ hl
  obtain ⟨r1, r2⟩ := sc_admissible (F := F) hγ hr
  have u1 := sc_u (F := F) hγ hl
  have u2 := sc_u (F := F) hγ hr
  have p1 : (sc (globalToNormal F (toPrim γ left))).p = pressure γ left := by
    rw [toPrim_physical hγ (physical_of_admissible hl)]; rfl
  have p2 : (sc (globalToNormal F (toPrim γ right))).p = pressure γ right := by
    rw [toPrim_physical hγ (physical_of_admissible hr)]; rfl
  rw [ul] at u1
  rw [ur] at u2
  rw [← hp] at p2
  generalize sc (globalToNormal F (toPrim γ left)) = l at *
  generalize sc (globalToNormal F (toPrim γ right)) = r at *
  have a1 := (aOf_sq hγ l1 l2).1
  have a2 := (aOf_sq hγ r1 r2).1
  have ep : pEst γ l r = pressure γ left := by
    unfold pEst
    rw [u1, u2, p1, p2, sub_zero, zero_mul, zero_mul, sub_zero, add_self_div_two]
    exact max_eq_right (by rw [← p1]; exact l2.le)
  have el : sL γ l r = -aOf γ l := by
    unfold sL getQ; rw [ep, p1, if_pos (le_refl _), u1]; ring
  have er : sR γ l r = aOf γ r := by
    unfold sR getQ; rw [ep, p2, if_pos (le_refl _), u2]; ring
  have es : sStar l r (-aOf γ l) (aOf γ r) = 0 := by
    unfold sStar; rw [u1, u2, p1, p2]; simp
  have ec : hllcCoef γ l r = starLeft γ l (-aOf γ l) 0 := by
    unfold hllcCoef
    rw [el, er, es, if_neg (by linarith), if_neg (by linarith), if_pos (le_refl _)]
  obtain ⟨b1, b2, b3⟩ := star_rest γ (s := l) (wk := -aOf γ l) l1.ne' (by linarith)
    (by rw [u1]; linarith)
  rw [ec]
  unfold assembleGlobal starLeft
  rw [b1, b2, b3, u1, p1]
  simp only [Tup.mk.injEq, true_and, and_true]
  funext j; ring

/-- Water-air like density jump with slip. -/
example : Admissible (d := 1) (7/5) ⟨1000, ![0, 3], 100⟩ ∧
    velAlong ![1, 0] (⟨1000, ![0, 3], 100⟩ : Tup 1) = 0 := by
  constructor
  · constructor
    · norm_num
    · norm_num [pressure, Fin.sum_univ_succ]
  · norm_num [velAlong, vel, Fin.sum_univ_succ]

/-! ### C24: solid wall -/

theorem solid_wall {γ : ℝ} (hγ : 1 < γ) (F : Frame d) (c : Tup d) (hc : Physical γ c) :
    solidWall γ F c = ⟨0, fun j => pressure γ c * F 0 j, 0⟩ := by
  unfold solidWall normalToGlobal
  rw [toPrim_physical hγ hc]
  apply Tup.ext
  · rfl
  · funext j; exact sum_pick _ j
  · rfl

/-- No state whatsoever lets mass or energy through, or exerts a tangential force. -/
theorem solid_wall_any (γ : ℝ) (F : Frame d) (c : Tup d) :
    ∃ p ≥ 0, solidWall γ F c = ⟨0, fun j => p * F 0 j, 0⟩ := by
  refine ⟨(toPrim γ c).energy, (toPrim_nonneg γ c).2, ?_⟩
  unfold solidWall normalToGlobal
  apply Tup.ext
  · rfl
  · funext j; exact sum_pick _ j
  · rfl

/-! ### C25: smart boundary -/

theorem normalVelocity_spec {γ : ℝ} (hγ : 1 < γ) (F : Frame d) {c : Tup d} (hc : Physical γ c) :
    normalVelocity F (toPrim γ c) = velAlong (F 0) c := by
  rw [toPrim_physical hγ hc]; rfl

theorem smart_supersonic_inlet {γ : ℝ} (hγ : 1 < γ) {F : Frame d} (h : Orthonormal F)
    (ci co : Tup d) (hi : Admissible γ ci) (ho : Physical γ co)
    (hu : velAlong (F 0) ci < -sound γ ci) : smartBoundary γ F ci co = flux γ (F 0) co := by
  have hs : 0 ≤ sound γ ci := Real.sqrt_nonneg _
  unfold smartBoundary
  simp only [normalVelocity_spec hγ F (physical_of_admissible hi), sound_toPrim hγ hi]
  rw [if_pos (by linarith), if_pos (by linarith)]
  exact fluxOfPrim_physical hγ h ho

theorem smart_subsonic_inlet {γ : ℝ} (hγ : 1 < γ) {F : Frame d} (ci co : Tup d)
    (hi : Admissible γ ci) (hu : velAlong (F 0) ci < 0) (hu' : -sound γ ci ≤ velAlong (F 0) ci) :
    smartBoundary γ F ci co = subsonicInlet γ F ci co := by
  unfold smartBoundary
  simp only [normalVelocity_spec hγ F (physical_of_admissible hi), sound_toPrim hγ hi]
  rw [if_pos hu, if_neg (by linarith)]

theorem smart_supersonic_outlet {γ : ℝ} (hγ : 1 < γ) {F : Frame d} (h : Orthonormal F)
    (ci co : Tup d) (hi : Admissible γ ci) (hu : sound γ ci < velAlong (F 0) ci) :
    smartBoundary γ F ci co = flux γ (F 0) ci := by
  have hs : 0 ≤ sound γ ci := Real.sqrt_nonneg _
  unfold smartBoundary
  simp only [normalVelocity_spec hγ F (physical_of_admissible hi), sound_toPrim hγ hi]
  rw [if_neg (by linarith), if_pos (by linarith)]
  exact fluxOfPrim_physical hγ h (physical_of_admissible hi)

theorem smart_subsonic_outlet {γ : ℝ} (hγ : 1 < γ) {F : Frame d} (ci co : Tup d)
    (hi : Admissible γ ci) (hu : 0 ≤ velAlong (F 0) ci) (hu' : velAlong (F 0) ci ≤ sound γ ci) :
    smartBoundary γ F ci co = subsonicOutlet γ F ci co := by
  unfold smartBoundary
  simp only [normalVelocity_spec hγ F (physical_of_admissible hi), sound_toPrim hγ hi]
  rw [if_neg (by linarith), if_neg (by linarith)]

theorem sound_pos {γ : ℝ} (hγ : 1 < γ) {c : Tup d} (h : Admissible γ c) : 0 < sound γ c := by
  unfold sound
  apply Real.sqrt_pos.2
  have := h.1
  have := h.2
  positivity

theorem subsonic_inlet_same {γ : ℝ} (hγ : 1 < γ) {F : Frame d} (h : Orthonormal F) (c : Tup d)
    (hc : Admissible γ c) : subsonicInlet γ F c c = flux γ (F 0) c := by
  have e : inletState γ F c c = toPrim γ c := by
    have e0 : ((toPrim γ c).energy + (toPrim γ c).energy) * (1 / 2) = (toPrim γ c).energy := by ring
    unfold inletState
    simp only [sub_self, mul_zero, add_zero, e0, zero_div, sub_zero, zero_mul]
  unfold subsonicInlet
  rw [e, fluxOfPrim_physical hγ h (physical_of_admissible hc)]

theorem subsonic_outlet_same {γ : ℝ} (hγ : 1 < γ) {F : Frame d} (h : Orthonormal F) (c : Tup d)
    (hc : Admissible γ c) : subsonicOutlet γ F c c = flux γ (F 0) c := by
  have e : outletState γ F c c = toPrim γ c := by
    unfold outletState
    apply Tup.ext <;> simp
  unfold subsonicOutlet
  rw [e, fluxOfPrim_physical hγ h (physical_of_admissible hc)]

/-- Free stream is preserved: with equal states every branch gives the physical flux. -/
theorem smart_same {γ : ℝ} (hγ : 1 < γ) {F : Frame d} (h : Orthonormal F) (c : Tup d)
    (hc : Admissible γ c) : smartBoundary γ F c c = flux γ (F 0) c := by
  by_cases h1 : velAlong (F 0) c < 0
  · by_cases h2 : velAlong (F 0) c < -sound γ c
    · exact smart_supersonic_inlet hγ h c c hc (physical_of_admissible hc) h2
    · rw [smart_subsonic_inlet hγ c c hc h1 (not_lt.1 h2)]
      exact subsonic_inlet_same hγ h c hc
  · by_cases h2 : sound γ c < velAlong (F 0) c
    · exact smart_supersonic_outlet hγ h c c hc h2
    · rw [smart_subsonic_outlet hγ c c hc (not_lt.1 h1) (not_lt.1 h2)]
      exact subsonic_outlet_same hγ h c hc

/-! ### C54: subsonic boundary states satisfy the characteristic relations -/

/-- Inflow: the outgoing acoustic relation comes from inside, the incoming acoustic one, the
entropy relation and the tangential velocity from outside. -/
theorem subsonic_inlet_characteristics {γ : ℝ} (hγ : 1 < γ) {F : Frame d} (h : Orthonormal F)
    (ci co : Tup d) (hi : Admissible γ ci) (ho : Physical γ co) (hin : velAlong (F 0) co ≤ 0) :
    ∃ b : Tup d, subsonicInlet γ F ci co = fluxOfPrim γ F b ∧
      b.energy + ci.mass * sound γ ci * normalVelocity F b =
        pressure γ ci + ci.mass * sound γ ci * velAlong (F 0) ci ∧
      b.energy - ci.mass * sound γ ci * normalVelocity F b =
        pressure γ co - ci.mass * sound γ ci * velAlong (F 0) co ∧
      b.energy - sound γ ci ^ 2 * b.mass = pressure γ co - sound γ ci ^ 2 * co.mass ∧
      ∃ t, ∀ j, b.mom j = vel co j + t * F 0 j := by
  refine ⟨inletState γ F ci co, rfl, ?_⟩
  have ha := (sound_pos hγ hi).ne'
  have hm := hi.1.ne'
  have hn : ∑ j, F 0 j * F 0 j = 1 := by
    have := congrFun (congrFun h 0) 0
    rw [Matrix.mul_apply, Matrix.one_apply_eq] at this
    exact this
  have e0 := normalVelocity_spec hγ F ho
  have e1 := normalVelocity_spec hγ F (physical_of_admissible hi)
  have hb : inletState γ F ci co =
      ⟨co.mass - (pressure γ co - (pressure γ ci + pressure γ co -
          ci.mass * sound γ ci * (velAlong (F 0) co - velAlong (F 0) ci)) / 2) /
            (sound γ ci * sound γ ci),
        fun j => vel co j + (pressure γ co - (pressure γ ci + pressure γ co -
          ci.mass * sound γ ci * (velAlong (F 0) co - velAlong (F 0) ci)) / 2) /
            (-(ci.mass * sound γ ci)) * F 0 j,
        (pressure γ ci + pressure γ co -
          ci.mass * sound γ ci * (velAlong (F 0) co - velAlong (F 0) ci)) / 2⟩ := by
    unfold inletState
    simp only [e0, e1, sound_toPrim hγ hi, if_neg (not_lt.2 hin)]
    rw [toPrim_physical hγ ho, toPrim_physical hγ (physical_of_admissible hi)]
    have : (pressure γ ci + pressure γ co + ci.mass * -sound γ ci *
        (velAlong (F 0) co - velAlong (F 0) ci)) * (1 / 2) =
        (pressure γ ci + pressure γ co -
          ci.mass * sound γ ci * (velAlong (F 0) co - velAlong (F 0) ci)) / 2 := by ring
    simp only [this]
    simp only [mul_neg]
  rw [hb]
  generalize hP : (pressure γ ci + pressure γ co -
          ci.mass * sound γ ci * (velAlong (F 0) co - velAlong (F 0) ci)) / 2 = P
  generalize hT : (pressure γ co - P) / (-(ci.mass * sound γ ci)) = T
  have hT' : T * (ci.mass * sound γ ci) = P - pressure γ co := by
    rw [← hT]; field_simp; ring
  have hv : ∀ m p, normalVelocity F (⟨m, fun j => vel co j + T * F 0 j, p⟩ : Tup d) =
      velAlong (F 0) co + T := by
    intro m p
    unfold normalVelocity velAlong
    have : ∀ j, (vel co j + T * F 0 j) * F 0 j = vel co j * F 0 j + T * (F 0 j * F 0 j) := by
      intro j; ring
    simp only [this]
    rw [Finset.sum_add_distrib, ← Finset.mul_sum, hn, mul_one]
  simp only [hv]
  refine ⟨?_, ?_, ?_, T, fun j => rfl⟩
  · linear_combination hT' - 2 * hP
  · linear_combination -hT'
  · field_simp; ring

/-- Outflow: pressure is imposed; the outgoing acoustic relation, the entropy relation and the
tangential velocity come from inside. -/
theorem subsonic_outlet_characteristics {γ : ℝ} (hγ : 1 < γ) {F : Frame d} (h : Orthonormal F)
    (ci co : Tup d) (hi : Admissible γ ci) (ho : Physical γ co) (hout : 0 < velAlong (F 0) ci) :
    ∃ b : Tup d, subsonicOutlet γ F ci co = fluxOfPrim γ F b ∧
      b.energy = pressure γ co ∧
      b.energy + ci.mass * sound γ ci * normalVelocity F b =
        pressure γ ci + ci.mass * sound γ ci * velAlong (F 0) ci ∧
      b.energy - sound γ ci ^ 2 * b.mass = pressure γ ci - sound γ ci ^ 2 * ci.mass ∧
      ∃ t, ∀ j, b.mom j = vel ci j + t * F 0 j := by
  refine ⟨outletState γ F ci co, rfl, ?_⟩
  have ha := (sound_pos hγ hi).ne'
  have hm := hi.1.ne'
  have hn : ∑ j, F 0 j * F 0 j = 1 := by
    have := congrFun (congrFun h 0) 0
    rw [Matrix.mul_apply, Matrix.one_apply_eq] at this
    exact this
  have e1 := normalVelocity_spec hγ F (physical_of_admissible hi)
  have hb : outletState γ F ci co =
      ⟨ci.mass - (pressure γ ci - pressure γ co) / (sound γ ci * sound γ ci),
        fun j => vel ci j + (pressure γ ci - pressure γ co) / (ci.mass * sound γ ci) * F 0 j,
        pressure γ co⟩ := by
    unfold outletState
    simp only [e1, sound_toPrim hγ hi, if_pos hout]
    rw [toPrim_physical hγ ho, toPrim_physical hγ (physical_of_admissible hi)]
  rw [hb]
  generalize hT : (pressure γ ci - pressure γ co) / (ci.mass * sound γ ci) = T
  have hT' : T * (ci.mass * sound γ ci) = pressure γ ci - pressure γ co := by
    rw [← hT]; field_simp
  have hv : ∀ m p, normalVelocity F (⟨m, fun j => vel ci j + T * F 0 j, p⟩ : Tup d) =
      velAlong (F 0) ci + T := by
    intro m p
    unfold normalVelocity velAlong
    have : ∀ j, (vel ci j + T * F 0 j) * F 0 j = vel ci j * F 0 j + T * (F 0 j * F 0 j) := by
      intro j; ring
    simp only [this]
    rw [Finset.sum_add_distrib, ← Finset.mul_sum, hn, mul_one]
  simp only [hv]
  refine ⟨trivial, ?_, ?_, T, fun j => rfl⟩
  · linear_combination hT'
  · field_simp; ring

end MiniCFD.Euler
