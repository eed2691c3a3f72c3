import Verif.Spec.Euler
import Mathlib.Algebra.BigOperators.Field
import Mathlib.Tactic.Linarith
import Mathlib.Tactic.LinearCombination
import Mathlib.Tactic.FieldSimp
import Mathlib.Tactic.Ring
import Mathlib.Tactic.Positivity

namespace MiniCFD.Euler
open MiniCFD.Spec.Euler

variable {d : Nat}

/-! ### Conversions -/

theorem sum_sq_nonneg (s : Tup d) : 0 ≤ ∑ i, s.mom i * s.mom i :=
  Finset.sum_nonneg fun i _ => mul_self_nonneg _

theorem dynamic_vel (c : Tup d) (h : c.mass ≠ 0) :
    c.mass * ((∑ i, c.mom i / c.mass * (c.mom i / c.mass)) * (1 / 2)) =
      (∑ i, c.mom i ^ 2) / (2 * c.mass) := by
  have : ∑ i, c.mom i / c.mass * (c.mom i / c.mass) = (∑ i, c.mom i ^ 2) / (c.mass * c.mass) := by
    rw [Finset.sum_div]
    refine Finset.sum_congr rfl fun i _ => ?_
    field_simp
  rw [this]
  field_simp

theorem setZero_id {s : Tup d} (h1 : 0 ≤ s.mass) (h2 : 0 ≤ s.energy) : setZeroIfNegative s = s := by
  unfold setZeroIfNegative
  simp only [if_neg (not_lt.2 h1), if_neg (not_lt.2 h2)]

theorem setZero_nonneg (s : Tup d) :
    0 ≤ (setZeroIfNegative s).mass ∧ 0 ≤ (setZeroIfNegative s).energy := by
  unfold setZeroIfNegative
  by_cases h1 : s.mass < 0
  · simp [h1, Tup.zero]
  · simp only [if_neg h1]
    by_cases h2 : s.energy < 0
    · simp [h2, Tup.zero]
    · simp only [if_neg h2]
      exact ⟨not_lt.1 h1, not_lt.1 h2⟩

theorem energy_nonneg {γ : ℝ} (hγ : 1 < γ) {c : Tup d} (h : Physical γ c) : 0 ≤ c.energy := by
  obtain ⟨h1, h2⟩ := h
  unfold pressure at h2
  have h3 : 0 ≤ c.energy - (∑ i, c.mom i ^ 2) / (2 * c.mass) :=
    nonneg_of_mul_nonneg_right h2 (by linarith)
  have h4 : 0 ≤ (∑ i, c.mom i ^ 2) / (2 * c.mass) :=
    div_nonneg (Finset.sum_nonneg fun i _ => sq_nonneg _) (by linarith)
  linarith

theorem toPrim_physical {γ : ℝ} (hγ : 1 < γ) {c : Tup d} (h : Physical γ c) :
    toPrim γ c = ⟨c.mass, vel c, pressure γ c⟩ := by
  have he := energy_nonneg hγ h
  obtain ⟨h1, h2⟩ := h
  unfold toPrim
  rw [setZero_id h1.le he]
  simp only [if_pos h1.ne', dynamicPressure]
  rw [dynamic_vel c h1.ne']
  have e : (c.energy - (∑ i, c.mom i ^ 2) / (2 * c.mass)) * (γ - 1) = pressure γ c := by
    unfold pressure; ring
  rw [e]
  exact setZero_id (s := ⟨c.mass, vel c, pressure γ c⟩) h1.le h2

theorem physical_of_admissible {γ : ℝ} {c : Tup d} (h : Admissible γ c) : Physical γ c :=
  ⟨h.1, h.2.le⟩

theorem toPrim_admissible {γ : ℝ} (hγ : 1 < γ) {c : Tup d} (h : Admissible γ c) :
    AdmissiblePrim (toPrim γ c) := by
  rw [toPrim_physical hγ (physical_of_admissible h)]
  exact h

theorem sound_toPrim {γ : ℝ} (hγ : 1 < γ) {c : Tup d} (h : Admissible γ c) :
    speedOfSound γ (toPrim γ c) = sound γ c := by
  rw [toPrim_physical hγ (physical_of_admissible h)]
  unfold speedOfSound sound
  rw [if_neg]
  rintro (h' | h')
  · exact absurd h.1 (not_lt.2 h')
  · exact absurd h.2 (not_lt.2 h')

/-! ### Scalars a solver may look at -/

/-- Density, normal velocity, squared speed and pressure. -/
structure Sc where
  rho : ℝ
  u : ℝ
  K : ℝ
  p : ℝ

def sc (s : Tup d) : Sc := ⟨s.mass, s.mom 0, ∑ i, s.mom i * s.mom i, s.energy⟩

def Sc.flip (s : Sc) : Sc := { s with u := -s.u }

theorem flip_u (s : Sc) : s.flip.u = -s.u := rfl
theorem flip_rho (s : Sc) : s.flip.rho = s.rho := rfl
theorem flip_K (s : Sc) : s.flip.K = s.K := rfl
theorem flip_p (s : Sc) : s.flip.p = s.p := rfl

/-- A flux written by its coefficients. -/
structure Coef where
  mass : ℝ
  cl : ℝ
  cr : ℝ
  pi : ℝ
  energy : ℝ

def Coef.flip (c : Coef) : Coef := ⟨-c.mass, -c.cr, -c.cl, c.pi, -c.energy⟩

def assemble (c : Coef) (l r : Tup d) : Tup d :=
  ⟨c.mass, fun i => c.cl * l.mom i + c.cr * r.mom i + (if i = 0 then c.pi else 0), c.energy⟩

/-- Same, in global axes. -/
def assembleGlobal (c : Coef) (nu : Fin (d + 1) → ℝ) (l r : Tup d) : Tup d :=
  ⟨c.mass, fun j => c.cl * l.mom j + c.cr * r.mom j + c.pi * nu j, c.energy⟩

theorem ortho_cols {F : Frame d} (h : Orthonormal F) (j k : Fin (d + 1)) :
    ∑ i, F i j * F i k = if j = k then 1 else 0 := by
  have h' : F.transpose * F = 1 := mul_eq_one_comm.1 h
  have := congrFun (congrFun h' j) k
  rw [Matrix.mul_apply, Matrix.one_apply] at this
  exact this

theorem back_mom {F : Frame d} (h : Orthonormal F) (v : Fin (d + 1) → ℝ) (j : Fin (d + 1)) :
    ∑ i, (∑ k, v k * F i k) * F i j = v j := by
  calc ∑ i, (∑ k, v k * F i k) * F i j = ∑ i, ∑ k, v k * (F i k * F i j) := by
        refine Finset.sum_congr rfl fun i _ => ?_
        rw [Finset.sum_mul]
        exact Finset.sum_congr rfl fun k _ => by ring
    _ = ∑ k, v k * ∑ i, F i k * F i j := by
        rw [Finset.sum_comm]
        exact Finset.sum_congr rfl fun k _ => by rw [Finset.mul_sum]
    _ = v j := by
        simp only [ortho_cols h]
        rw [Finset.sum_eq_single j]
        · simp
        · intro b _ hb; simp [hb]
        · intro h; exact absurd (Finset.mem_univ _) h

theorem sum_sq_frame {F : Frame d} (h : Orthonormal F) (v : Fin (d + 1) → ℝ) :
    ∑ i, (∑ k, v k * F i k) * (∑ k, v k * F i k) = ∑ j, v j * v j := by
  calc ∑ i, (∑ k, v k * F i k) * (∑ k, v k * F i k)
      = ∑ i, ∑ j, v j * ((∑ k, v k * F i k) * F i j) := by
        refine Finset.sum_congr rfl fun i _ => ?_
        rw [Finset.mul_sum]
        exact Finset.sum_congr rfl fun k _ => by ring
    _ = ∑ j, v j * ∑ i, (∑ k, v k * F i k) * F i j := by
        rw [Finset.sum_comm]
        exact Finset.sum_congr rfl fun k _ => by rw [Finset.mul_sum]
    _ = _ := Finset.sum_congr rfl fun j _ => by rw [back_mom h]

theorem sum_pick {F : Frame d} (c : ℝ) (j : Fin (d + 1)) :
    ∑ i, (if i = 0 then c else 0) * F i j = c * F 0 j := by
  rw [Finset.sum_eq_single 0]
  · simp
  · intro b _ hb; simp [hb]
  · intro h; exact absurd (Finset.mem_univ _) h

theorem assemble_global {F : Frame d} (h : Orthonormal F) (c : Coef) (l r : Tup d) :
    normalToGlobal F (assemble c (globalToNormal F l) (globalToNormal F r)) =
      assembleGlobal c (F 0) l r := by
  unfold normalToGlobal assemble assembleGlobal globalToNormal
  simp only [Tup.mk.injEq, true_and, and_true]
  funext j
  calc ∑ i, (c.cl * (∑ k, l.mom k * F i k) + c.cr * (∑ k, r.mom k * F i k) +
          (if i = 0 then c.pi else 0)) * F i j
      = ∑ i, (c.cl * ((∑ k, l.mom k * F i k) * F i j) + c.cr * ((∑ k, r.mom k * F i k) * F i j) +
          (if i = 0 then c.pi else 0) * F i j) :=
        Finset.sum_congr rfl fun i _ => by ring
    _ = c.cl * (∑ i, (∑ k, l.mom k * F i k) * F i j) +
          c.cr * (∑ i, (∑ k, r.mom k * F i k) * F i j) + ∑ i, (if i = 0 then c.pi else 0) * F i j := by
        rw [Finset.sum_add_distrib, Finset.sum_add_distrib, Finset.mul_sum, Finset.mul_sum]
    _ = _ := by rw [back_mom h, back_mom h, sum_pick]

theorem sc_rotated {F : Frame d} (h : Orthonormal F) (s : Tup d) :
    sc (globalToNormal F s) = ⟨s.mass, normalVelocity F s, ∑ i, s.mom i * s.mom i, s.energy⟩ := by
  unfold sc globalToNormal normalVelocity
  simp only [sum_sq_frame h]

theorem sc_reversed {F F' : Frame d} (h : Orthonormal F) (h' : Orthonormal F')
    (hn : ∀ j, F' 0 j = -F 0 j) (s : Tup d) :
    sc (globalToNormal F' s) = (sc (globalToNormal F s)).flip := by
  rw [sc_rotated h, sc_rotated h']
  unfold Sc.flip normalVelocity
  simp only [hn, mul_neg, Finset.sum_neg_distrib]

/-- A solver whose answer is given by coefficients that only look at scalars, and change sign when
the axis is reversed, is conservative across a face in any orthonormal frames. -/
theorem reversal_of_coef {γ : ℝ} {solver : Tup d → Tup d → Tup d} {coef : Sc → Sc → Coef}
    (ha : ∀ l r, solver l r = assemble (coef (sc l) (sc r)) l r)
    {F F' : Frame d} (h : Orthonormal F) (h' : Orthonormal F') (hn : ∀ j, F' 0 j = -F 0 j)
    (left right : Tup d)
    (hc : coef (sc (globalToNormal F (toPrim γ right))).flip
        (sc (globalToNormal F (toPrim γ left))).flip =
      (coef (sc (globalToNormal F (toPrim γ left))) (sc (globalToNormal F (toPrim γ right)))).flip) :
    upwind γ solver F' right left = Tup.scale (-1) (upwind γ solver F left right) := by
  unfold upwind
  rw [ha, ha, assemble_global h, assemble_global h', sc_reversed h h' hn, sc_reversed h h' hn, hc]
  unfold assembleGlobal Coef.flip Tup.scale
  simp only [Tup.mk.injEq]
  refine ⟨by ring, ?_, by ring⟩
  funext j
  simp only [Pi.smul_apply, smul_eq_mul, hn]
  ring

/-! ### The physical flux -/

noncomputable def energyOf (γ : ℝ) (s : Sc) : ℝ := s.p * (1 / (γ - 1)) + s.rho * (s.K * (1 / 2))

noncomputable def fluxLeft (γ : ℝ) (s : Sc) : Coef :=
  ⟨s.rho * s.u, s.rho * s.u, 0, s.p, s.u * (energyOf γ s + s.p)⟩

noncomputable def fluxRight (γ : ℝ) (s : Sc) : Coef :=
  ⟨s.rho * s.u, 0, s.rho * s.u, s.p, s.u * (energyOf γ s + s.p)⟩

theorem primFlux_left (γ : ℝ) (l r : Tup d) : primFlux γ l = assemble (fluxLeft γ (sc l)) l r := by
  unfold primFlux assemble fluxLeft Tup.scale toCons sc energyOf dynamicPressure
  simp only [Tup.mk.injEq, Pi.smul_apply, smul_eq_mul]
  refine ⟨by ring, ?_, by ring⟩
  funext i
  split <;> ring

theorem primFlux_right (γ : ℝ) (l r : Tup d) : primFlux γ r = assemble (fluxRight γ (sc r)) l r := by
  unfold primFlux assemble fluxRight Tup.scale toCons sc energyOf dynamicPressure
  simp only [Tup.mk.injEq, Pi.smul_apply, smul_eq_mul]
  refine ⟨by ring, ?_, by ring⟩
  funext i
  split <;> ring

theorem fluxOfPrim_eq {γ : ℝ} {F : Frame d} (h : Orthonormal F) (s : Tup d) :
    fluxOfPrim γ F s = assembleGlobal (fluxLeft γ (sc (globalToNormal F s))) (F 0) s s := by
  unfold fluxOfPrim
  rw [primFlux_left γ _ (globalToNormal F s), assemble_global h]

/-- The flux of the converted state is the textbook flux. -/
theorem fluxOfPrim_physical {γ : ℝ} (hγ : 1 < γ) {F : Frame d} (h : Orthonormal F) {c : Tup d}
    (hc : Physical γ c) : fluxOfPrim γ F (toPrim γ c) = flux γ (F 0) c := by
  rw [fluxOfPrim_eq h, sc_rotated h, toPrim_physical hγ hc]
  have hm := hc.1.ne'
  have hu : normalVelocity F ⟨c.mass, vel c, pressure γ c⟩ = velAlong (F 0) c := rfl
  rw [hu]
  unfold assembleGlobal fluxLeft flux
  simp only [Tup.mk.injEq]
  refine ⟨trivial, ?_, ?_⟩
  · funext j
    unfold vel
    field_simp
    ring
  · unfold energyOf
    simp only [vel]
    rw [dynamic_vel c hm]
    have e : pressure γ c * (1 / (γ - 1)) = c.energy - (∑ i, c.mom i ^ 2) / (2 * c.mass) := by
      unfold pressure
      have : γ - 1 ≠ 0 := by linarith
      field_simp
    rw [e]; ring

/-! ### AUSM -/

noncomputable def aOf (γ : ℝ) (s : Sc) : ℝ :=
  if s.rho ≤ 0 ∨ s.p ≤ 0 then 0 else Real.sqrt (γ * s.p / s.rho)

noncomputable def machPos (m : ℝ) : ℝ :=
  if m ≥ -1 ∧ m ≤ 1 then (m + 1) * (m + 1) * (1 / 4) else if m < -1 then 0 else m
noncomputable def machNeg (m : ℝ) : ℝ :=
  if m ≥ -1 ∧ m ≤ 1 then -(m - 1) * (m - 1) * (1 / 4) else if m > 1 then 0 else m
noncomputable def presPos (p m : ℝ) : ℝ :=
  if m ≥ -1 ∧ m ≤ 1 then p * (m + 1) * (1 / 2) else if m < -1 then 0 else p
noncomputable def presNeg (p m : ℝ) : ℝ :=
  if m ≥ -1 ∧ m ≤ 1 then -p * (m - 1) * (1 / 2) else if m > 1 then 0 else p

noncomputable def hOf (γ : ℝ) (s : Sc) : ℝ := aOf γ s * aOf γ s / (γ - 1) + s.K * (1 / 2)

noncomputable def ausmCoef (γ : ℝ) (l r : Sc) : Coef :=
  let ml := l.rho * aOf γ l * machPos (l.u / aOf γ l)
  let mr := r.rho * aOf γ r * machNeg (r.u / aOf γ r)
  ⟨ml + mr, ml, mr, presPos l.p (l.u / aOf γ l) + presNeg r.p (r.u / aOf γ r),
    ml * hOf γ l + mr * hOf γ r⟩

theorem ausm_assemble (γ : ℝ) (l r : Tup d) :
    ausm γ l r = assemble (ausmCoef γ (sc l) (sc r)) l r := by
  unfold ausm ausmPositive ausmNegative Tup.add assemble ausmCoef
  simp only [Tup.mk.injEq]
  refine ⟨?_, ?_, ?_⟩
  · simp only [mul_one]; rfl
  · funext i
    simp only [Pi.add_apply]
    have e1 : ∀ s : Tup d, aOf γ (sc s) = speedOfSound γ s := fun s => rfl
    have e2 : ∀ s : Tup d, (sc s).u = s.mom 0 := fun s => rfl
    have e3 : ∀ s : Tup d, (sc s).p = s.energy := fun s => rfl
    have e4 : ∀ s : Tup d, (sc s).rho = s.mass := fun s => rfl
    simp only [e1, e2, e3, e4, machPos, machNeg, presPos, presNeg]
    by_cases hi : i = 0
    · simp only [if_pos hi]; ring
    · simp only [if_neg hi]; ring
  · rfl

theorem machNeg_flip (m : ℝ) : machNeg (-m) = -machPos m := by
  unfold machPos machNeg
  by_cases h : m ≥ -1 ∧ m ≤ 1
  · rw [if_pos h, if_pos ⟨by linarith [h.2], by linarith [h.1]⟩]; ring
  · rw [if_neg h, if_neg (fun h' => h ⟨by linarith [h'.2], by linarith [h'.1]⟩)]
    by_cases h2 : m < -1
    · rw [if_pos h2, if_pos (by linarith)]; ring
    · rw [if_neg h2, if_neg (by intro h3; exact h2 (by linarith))]

theorem presNeg_flip (p m : ℝ) : presNeg p (-m) = presPos p m := by
  unfold presPos presNeg
  by_cases h : m ≥ -1 ∧ m ≤ 1
  · rw [if_pos h, if_pos ⟨by linarith [h.2], by linarith [h.1]⟩]; ring
  · rw [if_neg h, if_neg (fun h' => h ⟨by linarith [h'.2], by linarith [h'.1]⟩)]
    by_cases h2 : m < -1
    · rw [if_pos h2, if_pos (by linarith)]
    · rw [if_neg h2, if_neg (by intro h3; exact h2 (by linarith))]

theorem machPos_flip (m : ℝ) : machPos (-m) = -machNeg m := by
  have := machNeg_flip (-m); rw [neg_neg] at this; linarith

theorem presPos_flip (p m : ℝ) : presPos p (-m) = presNeg p m := by
  have := presNeg_flip p (-m); rw [neg_neg] at this; exact this.symm

theorem ausmCoef_flip (γ : ℝ) (l r : Sc) : ausmCoef γ r.flip l.flip = (ausmCoef γ l r).flip := by
  have e1 : ∀ s : Sc, aOf γ s.flip = aOf γ s := fun s => rfl
  have e2 : ∀ s : Sc, hOf γ s.flip = hOf γ s := fun s => rfl
  have e3 : ∀ s : Sc, s.flip.u = -s.u := fun s => rfl
  have e4 : ∀ s : Sc, s.flip.rho = s.rho := fun s => rfl
  have e5 : ∀ s : Sc, s.flip.p = s.p := fun s => rfl
  unfold ausmCoef Coef.flip
  simp only [e1, e2, e3, e4, e5, neg_div, machPos_flip, machNeg_flip, presPos_flip, presNeg_flip,
    Coef.mk.injEq]
  refine ⟨by ring, by ring, by ring, by ring, by ring⟩

theorem mach_sum (m : ℝ) : machPos m + machNeg m = m := by
  unfold machPos machNeg
  by_cases h : m ≥ -1 ∧ m ≤ 1
  · rw [if_pos h, if_pos h]; ring
  · rw [if_neg h, if_neg h]
    by_cases h2 : m < -1
    · rw [if_pos h2, if_neg (by linarith)]; ring
    · rw [if_neg h2]
      have : m > 1 := by by_contra h3; exact h ⟨by linarith, by linarith⟩
      rw [if_pos this]; ring

theorem pres_sum (p m : ℝ) : presPos p m + presNeg p m = p := by
  unfold presPos presNeg
  by_cases h : m ≥ -1 ∧ m ≤ 1
  · rw [if_pos h, if_pos h]; ring
  · rw [if_neg h, if_neg h]
    by_cases h2 : m < -1
    · rw [if_pos h2, if_neg (by linarith)]; ring
    · rw [if_neg h2]
      have : m > 1 := by by_contra h3; exact h ⟨by linarith, by linarith⟩
      rw [if_pos this]; ring

theorem aOf_sq {γ : ℝ} (hγ : 1 < γ) {s : Sc} (h1 : 0 < s.rho) (h2 : 0 < s.p) :
    0 < aOf γ s ∧ aOf γ s * aOf γ s = γ * s.p / s.rho := by
  have : ¬ (s.rho ≤ 0 ∨ s.p ≤ 0) := by rintro (h | h) <;> linarith
  have hp : 0 < γ * s.p / s.rho := by positivity
  unfold aOf
  rw [if_neg this]
  exact ⟨Real.sqrt_pos.2 hp, Real.mul_self_sqrt hp.le⟩

theorem rho_h {γ : ℝ} (hγ : 1 < γ) {s : Sc} (h1 : 0 < s.rho) (h2 : 0 < s.p) :
    s.rho * hOf γ s = energyOf γ s + s.p := by
  unfold hOf energyOf
  rw [(aOf_sq hγ h1 h2).2]
  have : γ - 1 ≠ 0 := by linarith
  field_simp
  ring

/-- Fully left-sided when both states move right at least at the speed of sound. -/
theorem ausm_supersonic {γ : ℝ} (hγ : 1 < γ) {l r : Sc} (h1 : 0 < l.rho) (h2 : 0 < l.p)
    (h3 : 0 < r.rho) (h4 : 0 < r.p) (hl : aOf γ l ≤ l.u) (hr : aOf γ r ≤ r.u) :
    ausmCoef γ l r = fluxLeft γ l := by
  obtain ⟨ha, -⟩ := aOf_sq hγ h1 h2
  obtain ⟨hb, -⟩ := aOf_sq hγ h3 h4
  have ml : 1 ≤ l.u / aOf γ l := (one_le_div ha).2 hl
  have mr : 1 ≤ r.u / aOf γ r := (one_le_div hb).2 hr
  have e1 : machPos (l.u / aOf γ l) = l.u / aOf γ l ∧ presPos l.p (l.u / aOf γ l) = l.p := by
    generalize l.u / aOf γ l = m at *
    unfold machPos presPos
    by_cases h : m ≥ -1 ∧ m ≤ 1
    · have : m = 1 := le_antisymm h.2 ml
      rw [if_pos h, if_pos h, this]; constructor <;> ring
    · rw [if_neg h, if_neg h, if_neg (by linarith), if_neg (by linarith)]; exact ⟨rfl, rfl⟩
  have e2 : machNeg (r.u / aOf γ r) = 0 ∧ presNeg r.p (r.u / aOf γ r) = 0 := by
    generalize r.u / aOf γ r = m at *
    unfold machNeg presNeg
    by_cases h : m ≥ -1 ∧ m ≤ 1
    · have : m = 1 := le_antisymm h.2 mr
      rw [if_pos h, if_pos h, this]; constructor <;> ring
    · have : m > 1 := by by_contra h3; exact h ⟨by linarith, by linarith⟩
      rw [if_neg h, if_neg h, if_pos this, if_pos this]; exact ⟨rfl, rfl⟩
  have e3 := rho_h hγ h1 h2
  unfold ausmCoef fluxLeft
  simp only [e1.1, e1.2, e2.1, e2.2]
  have e4 : l.rho * aOf γ l * (l.u / aOf γ l) = l.rho * l.u := by
    field_simp
  simp only [e4, Coef.mk.injEq]
  refine ⟨by ring, trivial, by ring, by ring, ?_⟩
  linear_combination l.u * e3

/-! ### HLLC -/

noncomputable def pEst (γ : ℝ) (l r : Sc) : ℝ :=
  max 0 ((l.p + r.p - (r.u - l.u) * ((l.rho + r.rho) / 2) * ((aOf γ l + aOf γ r) / 2)) / 2)

noncomputable def sL (γ : ℝ) (l r : Sc) : ℝ := l.u - aOf γ l * getQ γ (pEst γ l r) l.p
noncomputable def sR (γ : ℝ) (l r : Sc) : ℝ := r.u + aOf γ r * getQ γ (pEst γ l r) r.p

noncomputable def sStar (l r : Sc) (sl sr : ℝ) : ℝ :=
  (r.p - l.p + l.rho * l.u * (sl - l.u) - r.rho * r.u * (sr - r.u)) /
    (l.rho * (sl - l.u) - r.rho * (sr - r.u))

noncomputable def starMass (s : Sc) (wk ws : ℝ) : ℝ :=
  s.rho * s.u + wk * (s.rho * (wk - s.u) / (wk - ws) - s.rho)
noncomputable def starPi (s : Sc) (wk ws : ℝ) : ℝ :=
  s.p + wk * (s.rho * (wk - s.u) / (wk - ws)) * (ws - s.u)
noncomputable def starEnergy (γ : ℝ) (s : Sc) (wk ws : ℝ) : ℝ :=
  s.u * (energyOf γ s + s.p) + wk *
    ((((s.p / (γ - 1) + s.rho * s.K * (1 / 2)) / s.rho +
      (ws - s.u) * (ws + s.p / (s.rho * (wk - s.u)))) * (s.rho * (wk - s.u) / (wk - ws))) -
      energyOf γ s)

noncomputable def starLeft (γ : ℝ) (s : Sc) (wk ws : ℝ) : Coef :=
  ⟨starMass s wk ws, starMass s wk ws, 0, starPi s wk ws, starEnergy γ s wk ws⟩
noncomputable def starRight (γ : ℝ) (s : Sc) (wk ws : ℝ) : Coef :=
  ⟨starMass s wk ws, 0, starMass s wk ws, starPi s wk ws, starEnergy γ s wk ws⟩

noncomputable def hllcCoef (γ : ℝ) (l r : Sc) : Coef :=
  if 0 ≤ sL γ l r then fluxLeft γ l
  else if sR γ l r ≤ 0 then fluxRight γ r
  else if 0 ≤ sStar l r (sL γ l r) (sR γ l r) then
    starLeft γ l (sL γ l r) (sStar l r (sL γ l r) (sR γ l r))
  else starRight γ r (sR γ l r) (sStar l r (sL γ l r) (sR γ l r))

theorem starFlux_left (γ : ℝ) (l r : Tup d) (wk ws : ℝ) :
    starFlux γ l wk ws = assemble (starLeft γ (sc l) wk ws) l r := by
  unfold starFlux primFlux Tup.add Tup.scale Tup.sub toCons assemble starLeft starMass starPi
    starEnergy energyOf sc dynamicPressure
  simp only [Tup.mk.injEq]
  refine ⟨by ring, ?_, by ring⟩
  funext i
  simp only [Pi.add_apply, Pi.smul_apply, Pi.sub_apply, smul_eq_mul]
  by_cases hi : i = 0
  · subst hi; simp only [if_true]; ring
  · simp only [if_neg hi]; ring

theorem starFlux_right (γ : ℝ) (l r : Tup d) (wk ws : ℝ) :
    starFlux γ r wk ws = assemble (starRight γ (sc r) wk ws) l r := by
  rw [starFlux_left γ r r wk ws]
  unfold assemble starLeft starRight
  simp only [Tup.mk.injEq, true_and, and_true]
  funext i; ring

theorem hllc_assemble (γ : ℝ) (l r : Tup d) :
    hllc γ l r = assemble (hllcCoef γ (sc l) (sc r)) l r := by
  have e1 : waveLeft γ l r = sL γ (sc l) (sc r) := rfl
  have e2 : waveRight γ l r = sR γ (sc l) (sc r) := rfl
  have e3 : ∀ a b, waveStar l r a b = sStar (sc l) (sc r) a b := fun _ _ => rfl
  unfold hllc hllcCoef
  simp only [e1, e2, e3]
  split
  · exact primFlux_left γ l r
  · split
    · exact primFlux_right γ l r
    · split
      · exact starFlux_left γ l r _ _
      · exact starFlux_right γ l r _ _

theorem getQ_pos {γ p pk : ℝ} (hγ : 1 < γ) (hp : 0 < pk) : 1 ≤ getQ γ p pk := by
  unfold getQ
  split
  · exact le_refl _
  · rename_i h
    push Not at h
    have h1 : 1 < p / pk := (one_lt_div hp).2 h
    have h2 : 0 ≤ (γ + 1) / 2 * (p / pk - 1) / γ := by
      apply div_nonneg _ (by linarith)
      exact mul_nonneg (by linarith) (by linarith)
    calc (1 : ℝ) = Real.sqrt 1 := by simp
      _ ≤ _ := Real.sqrt_le_sqrt (by linarith)

theorem sL_lt {γ : ℝ} (hγ : 1 < γ) {l r : Sc} (h1 : 0 < l.rho) (h2 : 0 < l.p) :
    sL γ l r < l.u := by
  have ha := (aOf_sq hγ h1 h2).1
  have hq := getQ_pos (p := pEst γ l r) hγ h2
  have : 0 < aOf γ l * getQ γ (pEst γ l r) l.p := mul_pos ha (by linarith)
  unfold sL; linarith

theorem lt_sR {γ : ℝ} (hγ : 1 < γ) {l r : Sc} (h1 : 0 < r.rho) (h2 : 0 < r.p) :
    r.u < sR γ l r := by
  have ha := (aOf_sq hγ h1 h2).1
  have hq := getQ_pos (p := pEst γ l r) hγ h2
  have : 0 < aOf γ r * getQ γ (pEst γ l r) r.p := mul_pos ha (by linarith)
  unfold sR; linarith

theorem pEst_flip (γ : ℝ) (l r : Sc) : pEst γ r.flip l.flip = pEst γ l r := by
  unfold pEst
  have e1 : ∀ s : Sc, aOf γ s.flip = aOf γ s := fun s => rfl
  simp only [e1, flip_u, flip_rho, flip_p]
  congr 1; ring

theorem sL_flip (γ : ℝ) (l r : Sc) : sL γ r.flip l.flip = -sR γ l r := by
  unfold sL sR
  rw [pEst_flip]
  have e1 : ∀ s : Sc, aOf γ s.flip = aOf γ s := fun s => rfl
  simp only [e1, flip_u, flip_rho, flip_p]; ring

theorem sR_flip (γ : ℝ) (l r : Sc) : sR γ r.flip l.flip = -sL γ l r := by
  unfold sL sR
  rw [pEst_flip]
  have e1 : ∀ s : Sc, aOf γ s.flip = aOf γ s := fun s => rfl
  simp only [e1, flip_u, flip_rho, flip_p]; ring

theorem sStar_flip (l r : Sc) (a b : ℝ) : sStar r.flip l.flip (-b) (-a) = -sStar l r a b := by
  unfold sStar Sc.flip
  rw [← neg_div]
  congr 1 <;> ring

theorem energyOf_flip (γ : ℝ) (s : Sc) : energyOf γ s.flip = energyOf γ s := rfl

theorem fluxLeft_flip (γ : ℝ) (s : Sc) : fluxLeft γ s.flip = (fluxRight γ s).flip := by
  unfold fluxLeft fluxRight Coef.flip
  simp only [energyOf_flip, flip_u, flip_rho, flip_p, Coef.mk.injEq]
  refine ⟨by ring, by ring, by ring, trivial, by ring⟩

theorem fluxRight_flip (γ : ℝ) (s : Sc) : fluxRight γ s.flip = (fluxLeft γ s).flip := by
  unfold fluxLeft fluxRight Coef.flip
  simp only [energyOf_flip, flip_u, flip_rho, flip_p, Coef.mk.injEq]
  refine ⟨by ring, by ring, by ring, trivial, by ring⟩

theorem starMass_flip (s : Sc) (a b : ℝ) : starMass s.flip (-a) (-b) = -starMass s a b := by
  unfold starMass Sc.flip
  have : s.rho * (-a - -s.u) / (-a - -b) = s.rho * (a - s.u) / (a - b) := by
    rw [← neg_div_neg_eq]; congr 1 <;> ring
  simp only [this]; ring

theorem starPi_flip (s : Sc) (a b : ℝ) : starPi s.flip (-a) (-b) = starPi s a b := by
  unfold starPi Sc.flip
  have : s.rho * (-a - -s.u) / (-a - -b) = s.rho * (a - s.u) / (a - b) := by
    rw [← neg_div_neg_eq]; congr 1 <;> ring
  simp only [this]; ring

theorem starEnergy_flip (γ : ℝ) (s : Sc) (a b : ℝ) :
    starEnergy γ s.flip (-a) (-b) = -starEnergy γ s a b := by
  unfold starEnergy
  rw [energyOf_flip]
  simp only [Sc.flip]
  have e1 : s.rho * (-a - -s.u) / (-a - -b) = s.rho * (a - s.u) / (a - b) := by
    rw [← neg_div_neg_eq]; congr 1 <;> ring
  have e2 : s.p / (s.rho * (-a - -s.u)) = -(s.p / (s.rho * (a - s.u))) := by
    rw [← div_neg]; congr 1; ring
  rw [e1, e2]; ring

theorem starLeft_flip (γ : ℝ) (s : Sc) (a b : ℝ) :
    starLeft γ s.flip (-a) (-b) = (starRight γ s a b).flip := by
  unfold starLeft starRight Coef.flip
  rw [starMass_flip, starPi_flip, starEnergy_flip]; simp

theorem starRight_flip (γ : ℝ) (s : Sc) (a b : ℝ) :
    starRight γ s.flip (-a) (-b) = (starLeft γ s a b).flip := by
  unfold starLeft starRight Coef.flip
  rw [starMass_flip, starPi_flip, starEnergy_flip]; simp

/-- The star flux of a contact at rest. -/
theorem star_rest (γ : ℝ) {s : Sc} {wk : ℝ} (h1 : s.rho ≠ 0) (hw : wk ≠ 0) (hu : wk - s.u ≠ 0) :
    starMass s wk 0 = 0 ∧ starPi s wk 0 = s.p - s.rho * s.u * (wk - s.u) ∧
      starEnergy γ s wk 0 = 0 := by
  refine ⟨?_, ?_, ?_⟩
  · unfold starMass; rw [sub_zero]; field_simp; ring
  · unfold starPi; rw [sub_zero]; field_simp; ring
  · unfold starEnergy
    have e : s.p / (γ - 1) + s.rho * s.K * (1 / 2) = energyOf γ s := by unfold energyOf; ring
    rw [e, sub_zero]
    generalize energyOf γ s = E
    field_simp
    ring

theorem hllcCoef_flip {γ : ℝ} (hγ : 1 < γ) {l r : Sc} (h1 : 0 < l.rho) (h2 : 0 < l.p)
    (h3 : 0 < r.rho) (h4 : 0 < r.p) (hw : ¬ (0 ≤ sL γ l r ∧ sR γ l r ≤ 0)) :
    hllcCoef γ r.flip l.flip = (hllcCoef γ l r).flip := by
  have hl := sL_lt (r := r) hγ h1 h2
  have hr := lt_sR (l := l) hγ h3 h4
  unfold hllcCoef
  rw [sL_flip, sR_flip]
  generalize hSL : sL γ l r = SL at *
  generalize hSR : sR γ l r = SR at *
  rw [sStar_flip]
  by_cases c1 : 0 ≤ SL
  · have c2 : ¬ SR ≤ 0 := fun h => hw ⟨c1, h⟩
    rw [if_pos c1, if_neg (by intro h; exact c2 (by linarith)), if_pos (by linarith),
      fluxRight_flip]
  · rw [if_neg c1]
    by_cases c2 : SR ≤ 0
    · rw [if_pos c2, if_pos (by linarith), fluxLeft_flip]
    · rw [if_neg c2, if_neg (by intro h; exact c2 (by linarith)),
        if_neg (by intro h; exact c1 (by linarith))]
      push Not at c1 c2
      rcases lt_trichotomy (sStar l r SL SR) 0 with c3 | c3 | c3
      · rw [if_neg (not_le.2 c3), if_pos (by linarith), starLeft_flip]
      · have hden : l.rho * (SL - l.u) - r.rho * (SR - r.u) ≠ 0 := by
          have a1 : l.rho * (SL - l.u) < 0 := mul_neg_of_pos_of_neg h1 (by linarith)
          have a2 : 0 < r.rho * (SR - r.u) := mul_pos h3 (by linarith)
          linarith
        have hnum : r.p - l.p + l.rho * l.u * (SL - l.u) - r.rho * r.u * (SR - r.u) = 0 := by
          unfold sStar at c3
          rcases div_eq_zero_iff.1 c3 with h | h
          · exact h
          · exact absurd h hden
        rw [c3, neg_zero, if_pos (le_refl _), if_pos (le_refl _)]
        obtain ⟨a1, a2, a3⟩ := star_rest γ (s := l) (wk := SL) h1.ne' (by linarith) (by linarith)
        have hr' : (-SR) - r.flip.u ≠ 0 := by
          show -SR - -r.u ≠ 0
          linarith
        obtain ⟨b1, b2, b3⟩ := star_rest γ (s := r.flip) (wk := -SR) h3.ne' (by linarith) hr'
        unfold starLeft Coef.flip
        rw [a1, a2, a3, b1, b2, b3]
        simp only [Coef.mk.injEq, neg_zero, and_true, true_and]
        show r.p - r.rho * (-r.u) * (-SR - -r.u) = l.p - l.rho * l.u * (SL - l.u)
        linear_combination hnum
      · rw [if_pos c3.le, if_neg (by linarith), starRight_flip]

theorem hllcCoef_same {γ : ℝ} (hγ : 1 < γ) {s : Sc} (h1 : 0 < s.rho) (h2 : 0 < s.p) :
    hllcCoef γ s s = fluxLeft γ s ∨ hllcCoef γ s s = fluxRight γ s := by
  obtain ⟨ha, -⟩ := aOf_sq hγ h1 h2
  have ep : pEst γ s s = s.p := by
    unfold pEst
    have : (s.p + s.p - (s.u - s.u) * ((s.rho + s.rho) / 2) * ((aOf γ s + aOf γ s) / 2)) / 2 = s.p := by
      ring
    rw [this, max_eq_right h2.le]
  have eq : getQ γ s.p s.p = 1 := by unfold getQ; rw [if_pos (le_refl _)]
  have el : sL γ s s = s.u - aOf γ s := by unfold sL; rw [ep, eq]; ring
  have er : sR γ s s = s.u + aOf γ s := by unfold sR; rw [ep, eq]; ring
  have es : sStar s s (s.u - aOf γ s) (s.u + aOf γ s) = s.u := by
    unfold sStar
    have hd : s.rho * (s.u - aOf γ s - s.u) - s.rho * (s.u + aOf γ s - s.u) ≠ 0 := by
      have : 0 < s.rho * aOf γ s := mul_pos h1 ha
      intro h; nlinarith
    rw [div_eq_iff hd]; ring
  have mid : ∀ wk, wk - s.u ≠ 0 → starMass s wk s.u = s.rho * s.u ∧ starPi s wk s.u = s.p ∧
      starEnergy γ s wk s.u = s.u * (energyOf γ s + s.p) := by
    intro wk hk
    have e : s.rho * (wk - s.u) / (wk - s.u) = s.rho := by field_simp
    refine ⟨?_, ?_, ?_⟩
    · unfold starMass; rw [e]; ring
    · unfold starPi; rw [e]; ring
    · unfold starEnergy
      rw [e]
      have e2 : s.p / (γ - 1) + s.rho * s.K * (1 / 2) = energyOf γ s := by unfold energyOf; ring
      rw [e2]
      generalize energyOf γ s = E
      rw [sub_self, zero_mul, add_zero, div_mul_cancel₀ _ h1.ne']; ring
  unfold hllcCoef
  rw [el, er, es]
  split
  · exact Or.inl rfl
  · split
    · exact Or.inr rfl
    · split
      · left
        obtain ⟨a, b, c⟩ := mid (s.u - aOf γ s) (by linarith)
        unfold starLeft fluxLeft
        rw [a, b, c]
      · right
        obtain ⟨a, b, c⟩ := mid (s.u + aOf γ s) (by linarith)
        unfold starRight fluxRight
        rw [a, b, c]

end MiniCFD.Euler
