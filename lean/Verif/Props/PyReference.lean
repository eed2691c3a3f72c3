import Verif.Model.PyReference
import Verif.Spec.PyReference
import Mathlib.Analysis.Calculus.Deriv.Add
import Mathlib.Analysis.Calculus.Deriv.Mul
import Mathlib.Analysis.Calculus.Deriv.Comp
import Mathlib.Analysis.SpecialFunctions.ExpDeriv
import Mathlib.Analysis.SpecialFunctions.Trigonometric.Deriv
import Mathlib.Analysis.SpecialFunctions.Integrals.Basic
import Mathlib.MeasureTheory.Integral.IntervalIntegral.FundThmCalculus
import Mathlib.Tactic.Linarith
import Mathlib.Tactic.LinearCombination
import Mathlib.Tactic.FieldSimp
import Mathlib.Tactic.Ring
import Mathlib.Tactic.NormNum
import Mathlib.Tactic.Positivity
import Mathlib.Tactic.FunProp

/-!
# The reference solutions of the linear problems

Partial: the reference of `LinearSmooth` solves the equation exactly if there is no diffusion or the mean value is zero;
with both it does not (`smooth_wrong`), because the mean value decays too (`smooth_total`).  The reference of
`LinearJumps` solves the equation without diffusion only.
-/

namespace MiniCFD.PyReference
open MiniCFD.Spec.PyReference

/-- The reference starts from the initial values. -/
theorem exact_init (s : Linear) (init : ℝ → ℝ) (x : ℝ) : s.exact init x 0 = init x := by
  simp [Linear.exact]

theorem wave_turn (s : Linear) {k : ℤ} {length : ℝ} (h : length ≠ 0) (hω : s.omega = waveNumber k length) (x : ℝ) :
    Real.sin ((x + length - s.xLeft) * s.omega) = Real.sin ((x - s.xLeft) * s.omega) := by
  have e : (x + length - s.xLeft) * s.omega = (x - s.xLeft) * s.omega + k * (2 * Real.pi) := by
    rw [hω, waveNumber]
    field_simp
    ring
  rw [e, Real.sin_add_int_mul_two_pi]

/-- The initial values of both problems, and so their references at all times, have the period of the domain. -/
theorem periodic (s : Linear) {k : ℤ} {length : ℝ} (h : length ≠ 0) (hω : s.omega = waveNumber k length) (x t : ℝ) :
    s.smooth (x + length) = s.smooth x ∧
    s.jumps (x + length) = s.jumps x ∧
    s.exact s.smooth (x + length) t = s.exact s.smooth x t ∧
    s.exact s.jumps (x + length) t = s.exact s.jumps x t := by
  have h1 : ∀ x, s.smooth (x + length) = s.smooth x := fun x => by simp only [Linear.smooth, wave_turn s h hω]
  have h2 : ∀ x, s.jumps (x + length) = s.jumps x := fun x => by simp only [Linear.jumps, wave_turn s h hω]
  refine ⟨h1 x, h2 x, ?_, ?_⟩
  · simp only [Linear.exact]
    rw [add_sub_right_comm, h1]
  · simp only [Linear.exact]
    rw [add_sub_right_comm, h2]

example : (Linear.mk 3 (waveNumber 2 10) (-5) 1 0).omega = waveNumber 2 10 ∧ (10 : ℝ) ≠ 0 := ⟨rfl, by norm_num⟩

/-- The derivatives of the reference of `LinearSmooth`. -/
theorem smooth_derivatives (s : Linear) (x t : ℝ) :
    HasDerivAt (fun r => s.exact s.smooth x r)
      (Real.exp (-t * s.b * s.omega ^ 2) * (-s.b * s.omega ^ 2 * s.smooth (x - s.a * t)
        - s.a * s.omega * Real.cos ((x - s.a * t - s.xLeft) * s.omega))) t ∧
    HasDerivAt (fun y => s.exact s.smooth y t)
      (Real.exp (-t * s.b * s.omega ^ 2) * (s.omega * Real.cos ((x - s.a * t - s.xLeft) * s.omega))) x ∧
    HasDerivAt (fun y => Real.exp (-t * s.b * s.omega ^ 2) * (s.omega * Real.cos ((y - s.a * t - s.xLeft) * s.omega)))
      (Real.exp (-t * s.b * s.omega ^ 2) * (-s.omega ^ 2 * Real.sin ((x - s.a * t - s.xLeft) * s.omega))) x := by
  refine ⟨?_, ?_, ?_⟩
  · have h1 : HasDerivAt (fun r : ℝ => -r * s.b * s.omega ^ 2) (-1 * s.b * s.omega ^ 2) t :=
      ((hasDerivAt_id t).neg.mul_const s.b).mul_const _
    have h2 : HasDerivAt (fun r : ℝ => (x - s.a * r - s.xLeft) * s.omega) (-(s.a * 1) * s.omega) t :=
      ((((hasDerivAt_id t).const_mul s.a).const_sub x).sub_const s.xLeft).mul_const s.omega
    have h3 := (h1.exp).mul ((h2.sin).add_const s.mean)
    have e : (fun r => s.exact s.smooth x r) =
        (fun r => Real.exp (-r * s.b * s.omega ^ 2)) * fun r => Real.sin ((x - s.a * r - s.xLeft) * s.omega) + s.mean := rfl
    rw [e]
    refine h3.congr_deriv ?_
    simp only [Linear.smooth]
    ring
  · have h2 : HasDerivAt (fun y : ℝ => (y - s.a * t - s.xLeft) * s.omega) (1 * s.omega) x :=
      (((hasDerivAt_id x).sub_const (s.a * t)).sub_const s.xLeft).mul_const s.omega
    have h3 := ((h2.sin).add_const s.mean).const_mul (Real.exp (-t * s.b * s.omega ^ 2))
    refine h3.congr_deriv ?_
    ring
  · have h2 : HasDerivAt (fun y : ℝ => (y - s.a * t - s.xLeft) * s.omega) (1 * s.omega) x :=
      (((hasDerivAt_id x).sub_const (s.a * t)).sub_const s.xLeft).mul_const s.omega
    have h3 := ((h2.cos).const_mul s.omega).const_mul (Real.exp (-t * s.b * s.omega ^ 2))
    refine h3.congr_deriv ?_
    ring

/-- Without diffusion, or with mean value zero, the reference of `LinearSmooth` solves `u_t + a u_x = b u_xx`. -/
theorem smooth_solves_partial (s : Linear) (h : s.b = 0 ∨ s.mean = 0) :
    SolvesLinear s.a s.b (s.exact s.smooth) := by
  refine ⟨_, _, _, fun x t => ⟨(smooth_derivatives s x t).1, (smooth_derivatives s x t).2.1,
    (smooth_derivatives s x t).2.2, ?_⟩⟩
  simp only [Linear.smooth]
  rcases h with h | h <;> rw [h] <;> ring

example : SolvesLinear 2 (1 / 10) ((Linear.mk 0 (waveNumber 2 10) (-5) 2 (1 / 10)).exact (Linear.smooth ⟨0, waveNumber 2 10, -5, 2, 1 / 10⟩)) :=
  smooth_solves_partial ⟨0, waveNumber 2 10, -5, 2, 1 / 10⟩ (Or.inr rfl)

/-- With diffusion, a mean value and a wave it does not. -/
theorem smooth_wrong (s : Linear) (hb : s.b ≠ 0) (hm : s.mean ≠ 0) (hω : s.omega ≠ 0) :
    ¬SolvesLinear s.a s.b (s.exact s.smooth) := by
  rintro ⟨ut, ux, uxx, h⟩
  have hd := fun x t => smooth_derivatives s x t
  have e2 : ∀ x t, ux x t = Real.exp (-t * s.b * s.omega ^ 2) * (s.omega * Real.cos ((x - s.a * t - s.xLeft) * s.omega)) :=
    fun x t => (h x t).2.1.unique (hd x t).2.1
  have e1 := (h 0 0).1.unique (hd 0 0).1
  have h3 := (h 0 0).2.2.1
  simp only [e2] at h3
  have e3 := h3.unique (hd 0 0).2.2
  have e := (h 0 0).2.2.2
  rw [e1, e2, e3] at e
  simp only [Linear.smooth, neg_zero, zero_mul, Real.exp_zero, mul_zero, sub_zero, one_mul] at e
  have : s.b * s.omega ^ 2 * s.mean = 0 := by linear_combination -e
  simp [hb, hm, hω] at this

/-- The integral of the reference of `LinearSmooth` over the domain is that of the mean value times a factor that decays
with diffusion, whereas the equation conserves it. -/
theorem smooth_total (s : Linear) {k : ℤ} {length : ℝ} (h : length ≠ 0) (hk : k ≠ 0) (hω : s.omega = waveNumber k length)
    (x t : ℝ) :
    ∫ y in x..x + length, s.exact s.smooth y t = Real.exp (-t * s.b * s.omega ^ 2) * (length * s.mean) := by
  have hω0 : s.omega ≠ 0 := by
    rw [hω, waveNumber]
    have := Real.pi_pos.ne'
    have : (k : ℝ) ≠ 0 := by exact_mod_cast hk
    positivity
  have hder : ∀ y, HasDerivAt (fun y : ℝ => Real.exp (-t * s.b * s.omega ^ 2) *
      (-Real.cos ((y - s.a * t - s.xLeft) * s.omega) / s.omega + y * s.mean)) (s.exact s.smooth y t) y := by
    intro y
    have h2 : HasDerivAt (fun y : ℝ => (y - s.a * t - s.xLeft) * s.omega) (1 * s.omega) y :=
      (((hasDerivAt_id y).sub_const (s.a * t)).sub_const s.xLeft).mul_const s.omega
    have h3 := (((h2.cos).neg.div_const s.omega).add ((hasDerivAt_id y).mul_const s.mean)).const_mul
      (Real.exp (-t * s.b * s.omega ^ 2))
    refine h3.congr_deriv ?_
    simp only [Linear.exact, Linear.smooth]
    field_simp
  have hcont : Continuous fun y => s.exact s.smooth y t := by
    unfold Linear.exact Linear.smooth
    fun_prop
  rw [intervalIntegral.integral_eq_sub_of_hasDerivAt (fun y _ => hder y) (hcont.intervalIntegrable _ _)]
  have e : (x + length - s.a * t - s.xLeft) * s.omega = (x - s.a * t - s.xLeft) * s.omega + k * (2 * Real.pi) := by
    rw [hω, waveNumber]
    field_simp
    ring
  rw [e, Real.cos_add_int_mul_two_pi]
  ring

/-- Consequently a run that conserves the integral exactly is reported an error whenever there are diffusion and a mean. -/
theorem smooth_not_conserved (s : Linear) {k : ℤ} {length : ℝ} (h : 0 < length) (hk : k ≠ 0)
    (hω : s.omega = waveNumber k length) (hb : 0 < s.b) (hm : s.mean ≠ 0) (x : ℝ) {t : ℝ} (ht : 0 < t) :
    ∫ y in x..x + length, s.exact s.smooth y t ≠ ∫ y in x..x + length, s.exact s.smooth y 0 := by
  rw [smooth_total s h.ne' hk hω, smooth_total s h.ne' hk hω]
  have hω0 : s.omega ≠ 0 := by
    rw [hω, waveNumber]
    have := Real.pi_pos.ne'
    have : (k : ℝ) ≠ 0 := by exact_mod_cast hk
    positivity
  have : Real.exp (-t * s.b * s.omega ^ 2) ≠ Real.exp (-0 * s.b * s.omega ^ 2) := by
    intro e
    have := Real.exp_injective e
    have h2 : 0 < t * s.b * s.omega ^ 2 := by positivity
    linarith
  intro e
  exact this (mul_right_cancel₀ (mul_ne_zero h.ne' hm) e)

example : (0 : ℝ) < 10 ∧ (2 : ℤ) ≠ 0 ∧ (Linear.mk 3 (waveNumber 2 10) (-5) 2 (1 / 10)).b ≠ 0 := by norm_num

/-- Without diffusion both references are carried along the characteristics unchanged. -/
theorem carried (s : Linear) (init : ℝ → ℝ) (hb : s.b = 0) (x t τ : ℝ) :
    s.exact init (x + s.a * τ) (t + τ) = s.exact init x t := by
  simp only [Linear.exact, hb, mul_zero, zero_mul, Real.exp_zero, one_mul]
  congr 1
  ring

/-- The initial values of `LinearJumps` are one above the mean, the mean, or one below it, as the wave is. -/
theorem jumps_values (s : Linear) (x : ℝ) :
    (0 < Real.sin ((x - s.xLeft) * s.omega) → s.jumps x = s.mean + 1) ∧
    (Real.sin ((x - s.xLeft) * s.omega) = 0 → s.jumps x = s.mean) ∧
    (Real.sin ((x - s.xLeft) * s.omega) < 0 → s.jumps x = s.mean - 1) := by
  refine ⟨fun h => ?_, fun h => ?_, fun h => ?_⟩
  · simp [Linear.jumps, sign_pos h, add_comm]
  · simp [Linear.jumps, h]
  · simp [Linear.jumps, sign_neg h]; ring

/-- The reference of `LinearJumps` keeps its jumps at all times, also with diffusion, where the solution is smooth. -/
theorem jumps_kept (s : Linear) (hω : s.omega ≠ 0) (t : ℝ) :
    ¬ContinuousAt (fun y => s.exact s.jumps y t) (s.xLeft + s.a * t) := by
  intro hc
  simp only [Linear.exact] at hc
  have h0 : s.jumps (s.xLeft + s.a * t - s.a * t) = s.mean := (jumps_values s _).2.1 (by simp)
  set e := Real.exp (-t * s.b * s.omega ^ 2) with he
  have hpos : 0 < e := Real.exp_pos _
  have h1 : Filter.Tendsto (fun r : ℝ => s.xLeft + s.a * t + r / s.omega) (nhdsWithin 0 (Set.Ioi 0))
      (nhds (s.xLeft + s.a * t)) := by
    have : Continuous fun r : ℝ => s.xLeft + s.a * t + r / s.omega := by fun_prop
    have := this.tendsto 0
    simp only [zero_div, add_zero] at this
    exact this.mono_left nhdsWithin_le_nhds
  have h2 := hc.tendsto.comp h1
  rw [h0] at h2
  have h3 : Filter.Tendsto (fun r : ℝ => e * s.jumps (s.xLeft + s.a * t + r / s.omega - s.a * t))
      (nhdsWithin 0 (Set.Ioi 0)) (nhds (e * (s.mean + 1))) := by
    refine tendsto_const_nhds.congr' ?_
    have : ∀ᶠ r in nhdsWithin (0 : ℝ) (Set.Ioi 0), r ∈ Set.Ioo 0 Real.pi := Ioo_mem_nhdsGT Real.pi_pos
    filter_upwards [this] with r hr
    rw [(jumps_values s _).1]
    have e : (s.xLeft + s.a * t + r / s.omega - s.a * t - s.xLeft) * s.omega = r := by field_simp; ring
    rw [e]
    exact Real.sin_pos_of_pos_of_lt_pi hr.1 hr.2
  have := tendsto_nhds_unique h2 h3
  nlinarith

/-- So it is no classical solution of the equation with diffusion, nor of the one without. -/
theorem jumps_wrong (s : Linear) (hω : s.omega ≠ 0) : ¬SolvesLinear s.a s.b (s.exact s.jumps) := by
  rintro ⟨ut, ux, uxx, h⟩
  exact jumps_kept s hω 1 (h _ 1).2.1.continuousAt

/-- The reference of a shock tube starts from the initial values everywhere but at the diaphragm, where it takes the other
of the two. -/
theorem tube_init {V : Type*} (similar : ℝ → V) (mid : ℝ) (left right : V) (x : ℝ) :
    (x ≠ mid → tubeExact similar mid left right x 0 = tubeInit mid left right x) ∧
    tubeExact similar mid left right mid 0 = left ∧ tubeInit mid left right mid = right := by
  refine ⟨fun h => ?_, ?_, ?_⟩
  · rcases lt_or_gt_of_ne h with h | h
    · simp [tubeExact, tubeInit, h, h.le]
    · simp [tubeExact, tubeInit, h.not_ge, h.not_gt]
  · simp [tubeExact]
  · simp [tubeInit]

/-- Later it depends on the distance from the diaphragm over the time alone. -/
theorem tube_similar {V : Type*} (similar : ℝ → V) (mid : ℝ) (left right : V) (ξ : ℝ) {t : ℝ} (ht : t ≠ 0) :
    tubeExact similar mid left right (mid + ξ * t) t = similar ξ := by
  simp [tubeExact, ht]

example : tubeExact (fun ξ : ℝ => ξ) 1 5 6 3 4 = 1 / 2 := by norm_num [tubeExact]

end MiniCFD.PyReference
