import Verif.Lemmas.PyViscosity
import Verif.Props.PyDetectorModes
import Mathlib.Analysis.SpecialFunctions.Trigonometric.Bounds
import Mathlib.Analysis.SpecialFunctions.Pow.Real

/-! # C115: the artificial viscosity of Persson and Peraire -/

namespace MiniCFD.PyViscosity
open MiniCFD.PyQuad MiniCFD.PyExpansion MiniCFD.PyDetector

/-- The ramp between no and full viscosity over the logarithm of the sensor. -/
private noncomputable def ramp (kappa g : ℝ) : ℝ := 1 / 2 * (1 + Real.sin (max (-1) (min (g / kappa) 1) * (Real.pi / 2)))

private theorem angle (t : ℝ) : max (-1) (min t 1) * (Real.pi / 2) ∈ Set.Icc (-(Real.pi / 2)) (Real.pi / 2) := by
  have hp := Real.pi_pos
  have h1 : -1 ≤ max (-1) (min t 1) := le_max_left _ _
  have h2 : max (-1) (min t 1) ≤ 1 := max_le (by norm_num) (min_le_right _ _)
  constructor <;> nlinarith

private theorem ramp_mono {kappa : ℝ} (hk : 0 < kappa) : Monotone (ramp kappa) := by
  intro a b h
  unfold ramp
  have : max (-1) (min (a / kappa) 1) * (Real.pi / 2) ≤ max (-1) (min (b / kappa) 1) * (Real.pi / 2) := by
    have : a / kappa ≤ b / kappa := by gcongr
    have hp := Real.pi_pos
    gcongr
  have := Real.strictMonoOn_sin.monotoneOn (angle _) (angle _) this
  linarith

private theorem ramp_range (kappa g : ℝ) : 0 ≤ ramp kappa g ∧ ramp kappa g ≤ 1 := by
  unfold ramp
  constructor <;> linarith [Real.neg_one_le_sin (max (-1) (min (g / kappa) 1) * (Real.pi / 2)),
    Real.sin_le_one (max (-1) (min (g / kappa) 1) * (Real.pi / 2))]

private theorem ramp_zero {kappa : ℝ} (hk : 0 < kappa) (g : ℝ) : ramp kappa g = 0 ↔ g ≤ -kappa := by
  have hp := Real.pi_pos
  have h0 : max (-1 : ℝ) (min (g / kappa) 1) = -1 ↔ g ≤ -kappa := by
    rw [max_eq_left_iff, min_le_iff, div_le_iff₀ hk]
    constructor
    · rintro (h | h) <;> linarith
    · intro h; left; linarith
  rw [← h0]
  unfold ramp
  constructor
  · intro h
    have h1 : Real.sin (max (-1) (min (g / kappa) 1) * (Real.pi / 2)) = Real.sin (-(Real.pi / 2)) := by
      rw [Real.sin_neg, Real.sin_pi_div_two]; linarith
    have := Real.strictMonoOn_sin.injOn (angle _) ⟨le_refl _, by linarith⟩ h1
    nlinarith
  · intro h
    rw [h, neg_one_mul, Real.sin_neg, Real.sin_pi_div_two]; norm_num

private theorem ramp_one {kappa : ℝ} (hk : 0 < kappa) (g : ℝ) : ramp kappa g = 1 ↔ kappa ≤ g := by
  have hp := Real.pi_pos
  have h0 : max (-1 : ℝ) (min (g / kappa) 1) = 1 ↔ kappa ≤ g := by
    constructor
    · intro h
      by_contra hn
      have h1 : g / kappa < 1 := (div_lt_one hk).2 (not_le.1 hn)
      rw [min_eq_left h1.le] at h
      rcases max_choice (-1) (g / kappa) with e | e <;> rw [e] at h <;> linarith
    · intro h
      rw [min_eq_right ((one_le_div hk).2 h)]
      norm_num
  rw [← h0]
  unfold ramp
  constructor
  · intro h
    have h1 : Real.sin (max (-1) (min (g / kappa) 1) * (Real.pi / 2)) = Real.sin (Real.pi / 2) := by
      rw [Real.sin_pi_div_two]; linarith
    have := Real.strictMonoOn_sin.injOn (angle _) ⟨by linarith, le_refl _⟩ h1
    nlinarith
  · intro h
    rw [h, one_mul, Real.sin_pi_div_two]; norm_num

private theorem nu_ramp {p : ℕ} (hp : p ≠ 0) {kappa length sensor : ℝ} (hk : 0 < kappa) (hs : 0 < sensor) :
    perssonNu p kappa length sensor = length / p * ramp kappa (Real.logb 10 (sensor * p ^ 4)) := by
  have hp0 : (0 : ℝ) < p := by exact_mod_cast Nat.pos_of_ne_zero hp
  have e : Real.logb 10 sensor - -4 * Real.logb 10 p = Real.logb 10 (sensor * p ^ 4) := by
    rw [Real.logb_mul hs.ne' (by positivity), Real.logb_pow]; push_cast; ring
  unfold perssonNu
  rw [if_neg hs.ne']
  dsimp only
  rw [e]
  set g := Real.logb 10 (sensor * p ^ 4)
  split_ifs with h1 h2
  · rw [(ramp_one hk g).2 h1.le, mul_one]
  · unfold ramp
    rw [max_eq_right, min_eq_left, mul_div_assoc]
    · rw [div_le_one hk]; linarith
    · rw [min_eq_left, le_div_iff₀ hk]
      · linarith
      · rw [div_le_one hk]; linarith
  · rw [(ramp_zero hk g).2 (by linarith), mul_zero]

private theorem log_le {s k : ℝ} (hs : 0 < s) : Real.logb 10 s ≤ k ↔ s ≤ 10 ^ k := Real.logb_le_iff_le_rpow (by norm_num) hs

private theorem le_log {s k : ℝ} (hs : 0 < s) : k ≤ Real.logb 10 s ↔ 10 ^ k ≤ s := Real.le_logb_iff_rpow_le (by norm_num) hs

/-- C115: The coefficient of an element of degree `p` and length `h` is between 0 and `h / p`, nothing up to `10^(-κ)` times
`p⁻⁴`, the full amount from `10^κ` times `p⁻⁴` on. -/
theorem persson_nu_range {p : ℕ} (hp : p ≠ 0) {kappa length sensor : ℝ} (hk : 0 < kappa) (hl : 0 < length) (hs : 0 ≤ sensor) :
    0 ≤ perssonNu p kappa length sensor ∧ perssonNu p kappa length sensor ≤ length / p ∧
    (perssonNu p kappa length sensor = 0 ↔ sensor * p ^ 4 ≤ 10 ^ (-kappa)) ∧
    (perssonNu p kappa length sensor = length / p ↔ 10 ^ kappa ≤ sensor * p ^ 4) := by
  have hp0 : (0 : ℝ) < p := by exact_mod_cast Nat.pos_of_ne_zero hp
  have hlp : 0 < length / p := by positivity
  rcases hs.eq_or_lt with rfl | hs
  · have : perssonNu p kappa length 0 = 0 := if_pos rfl
    have h1 : (0 : ℝ) < 10 ^ (-kappa) := by positivity
    have h2 : (0 : ℝ) < 10 ^ kappa := by positivity
    rw [this, zero_mul]
    exact ⟨le_refl _, hlp.le, by simp [h1.le], by simp [hlp.ne, h2]⟩
  · rw [nu_ramp hp hk hs]
    have hsp : 0 < sensor * p ^ 4 := by positivity
    obtain ⟨r0, r1⟩ := ramp_range kappa (Real.logb 10 (sensor * p ^ 4))
    refine ⟨by positivity, mul_le_of_le_one_right hlp.le r1, ?_, ?_⟩
    · rw [mul_eq_zero, or_iff_right hlp.ne', ramp_zero hk, log_le hsp]
    · rw [mul_eq_left₀ hlp.ne', ramp_one hk, le_log hsp]

/-- C115: More oscillation never gets less viscosity. -/
theorem persson_nu_mono {p : ℕ} (hp : p ≠ 0) {kappa length : ℝ} (hk : 0 < kappa) (hl : 0 < length) :
    MonotoneOn (perssonNu p kappa length) (Set.Ici 0) := by
  have hp0 : (0 : ℝ) < p := by exact_mod_cast Nat.pos_of_ne_zero hp
  intro a ha b hb hab
  rcases (Set.mem_Ici.1 ha).eq_or_lt with rfl | ha
  · have : perssonNu p kappa length 0 = 0 := if_pos rfl
    rw [this]
    exact (persson_nu_range hp hk hl hb).1
  · have hb' : 0 < b := lt_of_lt_of_le ha hab
    rw [nu_ramp hp hk ha, nu_ramp hp hk hb']
    refine mul_le_mul_of_nonneg_left (ramp_mono hk ?_) (by positivity)
    exact Real.logb_le_logb_of_le (by norm_num) (by positivity) (by gcongr)

/-- C115: The coefficient depends continuously on the sensor, so that elements do not switch between none and all. -/
theorem persson_nu_continuous {p : ℕ} (hp : p ≠ 0) {kappa length : ℝ} (hk : 0 < kappa) (hl : 0 < length) :
    ContinuousOn (perssonNu p kappa length) (Set.Ici 0) := by
  have hp0 : (0 : ℝ) < p := by exact_mod_cast Nat.pos_of_ne_zero hp
  intro s hs
  rcases (Set.mem_Ici.1 hs).eq_or_lt with rfl | hs
  · have h1 : (0 : ℝ) < 10 ^ (-kappa) / p ^ 4 := by positivity
    refine (continuousWithinAt_const (b := (0 : ℝ))).congr_of_eventuallyEq ?_ (if_pos rfl)
    filter_upwards [self_mem_nhdsWithin, mem_nhdsWithin_of_mem_nhds (Iio_mem_nhds h1)] with x hx hx'
    refine (persson_nu_range hp hk hl hx).2.2.1.2 ?_
    rw [Set.mem_Iio, lt_div_iff₀ (by positivity)] at hx'
    exact hx'.le
  · refine ContinuousAt.continuousWithinAt ?_
    have : perssonNu p kappa length =ᶠ[nhds s] fun x => length / p * ramp kappa (Real.logb 10 (x * p ^ 4)) := by
      filter_upwards [Ioi_mem_nhds hs] with x hx using nu_ramp hp hk hx
    refine ContinuousAt.congr ?_ this.symm
    have hlog : ContinuousAt (fun x => Real.logb 10 (x * (p : ℝ) ^ 4)) s := by
      have : s * (p : ℝ) ^ 4 ≠ 0 := by positivity
      unfold Real.logb
      exact ((continuousAt_id.mul continuousAt_const).log this).div_const _
    have hr : Continuous (ramp kappa) := by
      unfold ramp
      fun_prop
    exact continuousAt_const.mul (hr.continuousAt.comp hlog)

section Element
variable {p : ℕ} {co : Coordinate} {s : Setup p}

/-- C115: On a Legendre expansion of degree 1 or more of a scalar equation, the coefficient is the one of the share that
the highest mode has in the integral of the square (with its floor). -/
theorem persson_coeff_partial {kappa : ℝ} (hp : p ≠ 0) (hc : co.xLeft < co.xRight) (h : Built co s)
    (hm : s.kind = .modal) {st : State p (Value 0)} (hr : Reached s st) : ∃ sensor,
      perssonCoeff kappa s st = some (perssonNu p kappa (co.xRight - co.xLeft) sensor) ∧ 0 ≤ sensor ∧ sensor < 1 ∧
      sensor * ((∫ x in co.xLeft..co.xRight, s.value st x 0 ^ 2) + tiny) =
        ∫ x in co.xLeft..co.xRight, (s.basisValues x (Fin.last p) * st.coeff (Fin.last p) 0) ^ 2 := by
  have ht := tiny_pos
  obtain ⟨h1, h2⟩ := energy_meaning hc h hm hr 0
  have he : ∀ n, 0 ≤ energy s st.coeff 0 n := fun n => by
    rw [h1]
    exact intervalIntegral.integral_nonneg hc.le fun x _ => sq_nonneg _
  have hle : energy s st.coeff 0 (Fin.last p) ≤ ∑ n, energy s st.coeff 0 n :=
    Finset.single_le_sum (fun n _ => he n) (Finset.mem_univ _)
  have hd : 0 < 0 + ∑ n, energy s st.coeff 0 n + tiny := by
    have := Finset.sum_nonneg fun n (_ : n ∈ Finset.univ) => he n
    linarith
  refine ⟨_, ?_, div_nonneg (he (Fin.last p)) hd.le, ?_, ?_⟩
  · unfold perssonCoeff perssonSensor
    rw [hm]
    simp only [Option.bind_some, if_neg hp, if_true]
    rw [(h.sane hc).2, co.eq_linear.1]
  · rw [div_lt_one hd]; linarith
  · rw [← h2, ← h1]
    refine Eq.trans ?_ (div_mul_cancel₀ (energy s st.coeff 0 (Fin.last p)) hd.ne')
    congr 1
    ring

/-- C115: For linear elements the sensor never reaches the upper end of the ramp: at most half of the full amount. -/
theorem persson_linear_half {s : Setup 1} {kappa : ℝ} (hk : 0 < kappa) (hc : co.xLeft < co.xRight) (h : Built co s)
    (hm : s.kind = .modal) {st : State 1 (Value 0)} (hr : Reached s st) :
    ∃ nu, perssonCoeff kappa s st = some nu ∧ 0 ≤ nu ∧ nu ≤ (co.xRight - co.xLeft) / 2 := by
  obtain ⟨sensor, e, h0, h1, _⟩ := persson_coeff_partial (kappa := kappa) one_ne_zero hc h hm hr
  have hl : 0 < co.xRight - co.xLeft := by linarith
  refine ⟨_, e, (persson_nu_range one_ne_zero hk hl h0).1, ?_⟩
  refine (persson_nu_mono one_ne_zero hk hl h0 (Set.mem_Ici.2 zero_le_one) h1.le).trans ?_
  rw [nu_ramp one_ne_zero hk one_pos]
  simp [ramp]
  linarith

/-- C115: Every expansion that is not a Legendre one makes the computation raise. -/
theorem persson_coeff_nodal {m : ℕ} (kappa : ℝ) (hk : s.kind ≠ .modal) (st : State p (Value m)) :
    perssonCoeff kappa s st = none := by
  unfold perssonCoeff perssonSensor
  cases h : s.kind <;> simp_all

/-- C115: So does every system with more than one component. -/
theorem persson_coeff_system {m : ℕ} (hm : m ≠ 0) (kappa : ℝ) (st : State p (Value m)) : perssonCoeff kappa s st = none := by
  unfold perssonCoeff
  cases perssonSensor s st <;> simp [hm]

/-- C115: So does every element of degree 0, by a division by zero. -/
theorem persson_coeff_zero {m : ℕ} {s : Setup 0} (kappa : ℝ) (st : State 0 (Value m)) : perssonCoeff kappa s st = none := by
  unfold perssonCoeff
  cases perssonSensor s st <;> simp

/-- A linear element whose highest mode carries everything. -/
example : ∃ s : Setup 1, Built (.linear 0 1) s ∧ s.kind = .modal ∧
    ∃ nu, perssonCoeff 2 s (setCoeff s fun i => (fun _ => if i = 1 then 1 else 0 : Value 0)) = some nu := by
  obtain ⟨s, hs⟩ := modal_defined (p := 1) (c := .linear 0 1) (by norm_num [Coordinate.xLeft, Coordinate.xRight]) gauss2
  have hc : (Coordinate.linear 0 1).xLeft < (Coordinate.linear 0 1).xRight := by norm_num [Coordinate.xLeft, Coordinate.xRight]
  have hb : Built (.linear 0 1) s := .modal _ gauss2_exact hs
  have hm := (modal_sane hc hs).2.1
  obtain ⟨nu, e, _⟩ := persson_linear_half (kappa := 2) (by norm_num) hc hb hm (.coeff _ rfl)
  exact ⟨s, hb, hm, nu, e⟩

end Element

end MiniCFD.PyViscosity
