import Verif.Model.PyReference
import Verif.Spec.PyReference
import Mathlib.Analysis.Calculus.Deriv.Slope
import Mathlib.Analysis.Calculus.Deriv.Add
import Mathlib.Analysis.Calculus.Deriv.Mul
import Mathlib.Analysis.Calculus.Deriv.Comp
import Mathlib.Analysis.Calculus.DSlope
import Mathlib.Analysis.SpecialFunctions.Trigonometric.Deriv
import Mathlib.Analysis.SpecialFunctions.Trigonometric.Bounds
import Mathlib.Analysis.Real.Pi.Bounds
import Mathlib.Topology.Order.IntermediateValue
import Mathlib.Algebra.Order.Archimedean.Basic
import Mathlib.Tactic.Linarith
import Mathlib.Tactic.LinearCombination
import Mathlib.Tactic.FieldSimp
import Mathlib.Tactic.Ring
import Mathlib.Tactic.NormNum
import Mathlib.Tactic.Positivity
import Mathlib.Tactic.FunProp

/-!
# The reference solution of the Burgers problem

Partial: before the waves break (`|k t ω| < 1`) the reference is the classical solution whatever was asked before;
afterwards the answer depends on what was asked before (`history`).
-/

namespace MiniCFD.PyReference
open MiniCFD.Spec.PyReference

/-- Root finding on an interval exists. -/
theorem bisects_exists : ∃ bisect, Bisects bisect := by
  have h : ∀ (f : ℝ → ℝ) (a b : ℝ), ∃ r, Continuous f → a ≤ b → f a * f b ≤ 0 → (a ≤ r ∧ r ≤ b) ∧ f r = 0 := by
    intro f a b
    by_cases hf : Continuous f ∧ a ≤ b ∧ f a * f b ≤ 0
    · obtain ⟨hf, hab, hs⟩ := hf
      have : (0 : ℝ) ∈ f '' Set.Icc a b := by
        rcases le_or_gt (f a) 0 with h | h
        · rcases le_or_gt 0 (f b) with h' | h'
          · exact intermediate_value_Icc hab hf.continuousOn ⟨h, h'⟩
          · have : f a = 0 := by nlinarith
            exact ⟨a, ⟨le_refl _, hab⟩, this⟩
        · have : f b ≤ 0 := by nlinarith
          exact intermediate_value_Icc' hab hf.continuousOn ⟨this, h.le⟩
      obtain ⟨r, hr, h0⟩ := this
      exact ⟨r, fun _ _ _ => ⟨hr, h0⟩⟩
    · exact ⟨0, fun h1 h2 h3 => absurd ⟨h1, h2, h3⟩ hf⟩
  choose r hr using h
  exact ⟨r, hr⟩

/-- The loop that widens the bracket ends, and the function has no two values of one sign at the ends. -/
theorem bracket_found (f : ℝ → ℝ) (start : ℝ) {delta : ℝ} (hd : 0 < delta) (B : ℝ) (hlow : ∀ u, u < -B → f u < 0)
    (hhigh : ∀ u, B < u → 0 < f u) :
    ∃ lo hi, bracket f start delta = some (lo, hi) ∧ lo < start ∧ start < hi ∧ f lo * f hi ≤ 0 := by
  have h : ∃ n : ℕ, ¬f (start - delta - n * delta) * f (start + delta + n * delta) > 0 := by
    obtain ⟨n, hn⟩ := exists_nat_gt ((|start| + |B|) / delta)
    refine ⟨n, ?_⟩
    rw [div_lt_iff₀ hd] at hn
    have h1 := abs_le.1 (le_refl |start|)
    have h2 := abs_le.1 (le_refl |B|)
    have h3 := hlow (start - delta - n * delta) (by linarith)
    have h4 := hhigh (start + delta + n * delta) (by linarith)
    nlinarith
  have hn := Nat.find_spec h
  refine ⟨_, _, dif_pos h, ?_, ?_, not_lt.1 hn⟩
  · have : 0 ≤ (Nat.find h : ℝ) * delta := by positivity
    linarith
  · have : 0 ≤ (Nat.find h : ℝ) * delta := by positivity
    linarith

/-- Every request ends, whatever was asked before, with a solution of `u = u_init(x - k u t)`, which is remembered. -/
theorem burgers_defined {bisect : (ℝ → ℝ) → ℝ → ℝ → ℝ} (hb : Bisects bisect) (s : Burgers) (hm : s.mean = 0)
    (prev : Cache) (x t : ℝ) :
    ∃ u, s.exact bisect prev x t = some (u, Function.update prev x (some u)) ∧
      u = Real.sin ((x - s.k * u * t - s.xLeft) * s.omega) := by
  have hf : ∀ u, u - s.init (x - s.k * u * t) = u - Real.sin ((x - s.k * u * t - s.xLeft) * s.omega) := by
    intro u
    simp [Burgers.init, hm]
  obtain ⟨lo, hi, e, h1, h2, h3⟩ := bracket_found (fun u => u - s.init (x - s.k * u * t))
    (s.start prev x) (by norm_num : (0 : ℝ) < 2 / 100) 1
    (fun u hu => by
      rw [hf]
      have := Real.neg_one_le_sin ((x - s.k * u * t - s.xLeft) * s.omega)
      linarith)
    (fun u hu => by
      rw [hf]
      have := Real.sin_le_one ((x - s.k * u * t - s.xLeft) * s.omega)
      linarith)
  have hc : Continuous fun u => u - s.init (x - s.k * u * t) := by
    unfold Burgers.init
    fun_prop
  have hr := (hb _ lo hi hc (by linarith) h3).2
  refine ⟨bisect (fun u => u - s.init (x - s.k * u * t)) lo hi, ?_, ?_⟩
  · rw [Burgers.exact, if_neg (not_not.2 hm)]
    dsimp only
    rw [e]
    rfl
  · rw [hf] at hr
    linarith

/-- With a mean value the answer is `nan`. -/
theorem burgers_nan (bisect : (ℝ → ℝ) → ℝ → ℝ → ℝ) (s : Burgers) (hm : s.mean ≠ 0) (prev : Cache) (x t : ℝ) :
    s.exact bisect prev x t = none := if_pos hm

theorem fixed_unique {α β u v : ℝ} (hβ : |β| < 1) (hu : u = Real.sin (α - β * u)) (hv : v = Real.sin (α - β * v)) :
    u = v := by
  have h : |Real.sin (α - β * u) - Real.sin (α - β * v)| ≤ |(α - β * u) - (α - β * v)| := by
    have := Real.abs_sin_sub_sin_le (α - β * u) (α - β * v)
    simpa using this
  rw [← hu, ← hv, show (α - β * u) - (α - β * v) = -(β * (u - v)) by ring, abs_neg, abs_mul] at h
  by_contra hne
  have : 0 < |u - v| := abs_pos.2 (sub_ne_zero.2 hne)
  nlinarith

/-- Before the waves break the equation has one solution, so the answer does not depend on what was asked before. -/
theorem burgers_unique_partial {bisect : (ℝ → ℝ) → ℝ → ℝ → ℝ} (hb : Bisects bisect) (s : Burgers) (hm : s.mean = 0)
    (x : ℝ) {t : ℝ} (ht : |s.k * t * s.omega| < 1) :
    ∃ u, u = Real.sin ((x - s.k * u * t - s.xLeft) * s.omega) ∧
      (∀ v, v = Real.sin ((x - s.k * v * t - s.xLeft) * s.omega) → v = u) ∧
      ∀ prev, s.exact bisect prev x t = some (u, Function.update prev x (some u)) := by
  obtain ⟨u, _, hu⟩ := burgers_defined hb s hm (fun _ => none) x t
  have huniq : ∀ v, v = Real.sin ((x - s.k * v * t - s.xLeft) * s.omega) → v = u := by
    intro v hv
    refine fixed_unique (α := (x - s.xLeft) * s.omega) ht ?_ ?_
    · rw [show (x - s.xLeft) * s.omega - s.k * t * s.omega * v = (x - s.k * v * t - s.xLeft) * s.omega by ring]
      exact hv
    · rw [show (x - s.xLeft) * s.omega - s.k * t * s.omega * u = (x - s.k * u * t - s.xLeft) * s.omega by ring]
      exact hu
  refine ⟨u, hu, huniq, fun prev => ?_⟩
  obtain ⟨v, e, hv⟩ := burgers_defined hb s hm prev x t
  rw [e, huniq v hv]

example : |(Burgers.mk 0 (waveNumber 1 20) (-10) 1).k * 3 * (Burgers.mk 0 (waveNumber 1 20) (-10) 1).omega| < 1 := by
  have := Real.pi_lt_d2
  have := Real.pi_pos
  simp only [waveNumber]
  rw [abs_of_pos (by positivity)]
  push_cast
  linarith

/-- The derivative of a function given by `w = sin(α - β w)`. -/
theorem fixed_hasDerivAt {w α β : ℝ → ℝ} {t α' β' : ℝ} (hw : ∀ᶠ r in nhds t, w r = Real.sin (α r - β r * w r))
    (hα : HasDerivAt α α' t) (hβ : HasDerivAt β β' t) (hlt : |β t| < 1) :
    HasDerivAt w (Real.cos (α t - β t * w t) * (α' - β' * w t) / (1 + β t * Real.cos (α t - β t * w t))) t := by
  have hwt := hw.self_of_nhds
  -- the difference quotient of the sine
  set A : ℝ → ℝ := fun r => α r - β r * w r with hA
  set D : ℝ → ℝ := fun r => dslope Real.sin (A t) (A r) with hD
  have hDle : ∀ r, |D r| ≤ 1 := by
    intro r
    simp only [hD]
    by_cases h : A r = A t
    · rw [h, dslope_same, Real.deriv_sin]
      exact Real.abs_cos_le_one _
    · rw [dslope_of_ne _ h, slope_def_field, abs_div]
      refine div_le_one_of_le₀ ?_ (abs_nonneg _)
      exact Real.abs_sin_sub_sin_le _ _
  have hdiff : ∀ r, Real.sin (A r) - Real.sin (A t) = D r * (A r - A t) := by
    intro r
    simp only [hD]
    have := sub_smul_dslope Real.sin (A t) (A r)
    rw [smul_eq_mul] at this
    rw [← this]
    ring
  have hkey : ∀ᶠ r in nhds t, (w r - w t) * (1 + β r * D r) = D r * ((α r - α t) - (β r - β t) * w t) := by
    filter_upwards [hw] with r hr
    have h := hdiff r
    have e1 : Real.sin (A r) = w r := hr.symm
    have e2 : Real.sin (A t) = w t := hwt.symm
    rw [e1, e2] at h
    simp only [hA] at h
    linear_combination h
  obtain ⟨c, hc1, hc2⟩ := exists_between hlt
  have hβlt : ∀ᶠ r in nhds t, |β r| < c := hβ.continuousAt.abs.eventually_lt continuousAt_const hc1
  have hden : ∀ r, |β r| < c → 1 - c ≤ 1 + β r * D r := by
    intro r hr
    have h1 : |β r * D r| ≤ c := by
      rw [abs_mul]
      calc |β r| * |D r| ≤ |β r| * 1 := mul_le_mul_of_nonneg_left (hDle r) (abs_nonneg _)
        _ ≤ c := by linarith
    have := (abs_le.1 h1).1
    linarith
  have hc : 0 < 1 - c := by linarith
  -- continuity
  have hcont : ContinuousAt w t := by
    have hz : Filter.Tendsto (fun r => |(α r - α t) - (β r - β t) * w t| / (1 - c)) (nhds t) (nhds 0) := by
      have h1 : ContinuousAt (fun r => |(α r - α t) - (β r - β t) * w t| / (1 - c)) t :=
        (((hα.continuousAt.sub continuousAt_const).sub
          ((hβ.continuousAt.sub continuousAt_const).mul continuousAt_const)).abs).div_const _
      have := h1.tendsto
      simpa using this
    rw [ContinuousAt, tendsto_iff_dist_tendsto_zero]
    refine squeeze_zero' (Filter.Eventually.of_forall fun r => dist_nonneg) ?_ hz
    filter_upwards [hkey, hβlt] with r hr hb
    rw [Real.dist_eq, le_div_iff₀ hc]
    have hd := hden r hb
    calc |w r - w t| * (1 - c) ≤ |w r - w t| * (1 + β r * D r) := mul_le_mul_of_nonneg_left hd (abs_nonneg _)
      _ = |(w r - w t) * (1 + β r * D r)| := by rw [abs_mul, abs_of_pos (by linarith : 0 < 1 + β r * D r)]
      _ = |D r| * |(α r - α t) - (β r - β t) * w t| := by rw [hr, abs_mul]
      _ ≤ 1 * |(α r - α t) - (β r - β t) * w t| := mul_le_mul_of_nonneg_right (hDle r) (abs_nonneg _)
      _ = _ := one_mul _
  have hAc : ContinuousAt A t := hα.continuousAt.sub (hβ.continuousAt.mul hcont)
  have hDc : ContinuousAt D t := by
    have h1 : ContinuousAt (dslope Real.sin (A t)) (A t) :=
      continuousAt_dslope_same.2 Real.differentiable_sin.differentiableAt
    exact h1.comp hAc
  have hDt : D t = Real.cos (A t) := by
    simp only [hD]
    rw [dslope_same, Real.deriv_sin]
  rw [hasDerivAt_iff_tendsto_slope]
  have hlim : Filter.Tendsto (fun r => D r * (slope α t r - slope β t r * w t) / (1 + β r * D r)) (nhdsWithin t {t}ᶜ)
      (nhds (Real.cos (A t) * (α' - β' * w t) / (1 + β t * Real.cos (A t)))) := by
    have hDl : Filter.Tendsto D (nhdsWithin t {t}ᶜ) (nhds (Real.cos (A t))) :=
      hDt ▸ hDc.tendsto.mono_left nhdsWithin_le_nhds
    have hβl : Filter.Tendsto β (nhdsWithin t {t}ᶜ) (nhds (β t)) := hβ.continuousAt.tendsto.mono_left nhdsWithin_le_nhds
    refine Filter.Tendsto.div ?_ ?_ ?_
    · exact hDl.mul ((hasDerivAt_iff_tendsto_slope.1 hα).sub ((hasDerivAt_iff_tendsto_slope.1 hβ).mul_const _))
    · exact tendsto_const_nhds.add (hβl.mul hDl)
    · have := hden t hc1
      rw [hDt] at this
      linarith
  refine hlim.congr' ?_
  have h1 := hkey.filter_mono (nhdsWithin_le_nhds (s := {t}ᶜ))
  have h2 := hβlt.filter_mono (nhdsWithin_le_nhds (s := {t}ᶜ))
  filter_upwards [h1, h2, self_mem_nhdsWithin] with r hr hb hne
  have hd := hden r hb
  have hne' : r - t ≠ 0 := sub_ne_zero.2 hne
  rw [div_eq_iff (by linarith : 1 + β r * D r ≠ 0) |>.2]
  simp only [slope_def_field]
  field_simp
  linear_combination -hr

/-- Before the waves break the answers, each given with any history, are a classical solution of `u_t + k u u_x = 0`
with the initial values. -/
theorem burgers_solves_partial {bisect : (ℝ → ℝ) → ℝ → ℝ → ℝ} (hb : Bisects bisect) (s : Burgers) (hm : s.mean = 0)
    (prev : ℝ → ℝ → Cache) (u : ℝ → ℝ → ℝ)
    (hu : ∀ x t, (s.exact bisect (prev x t) x t).map Prod.fst = some (u x t)) :
    (∀ x, u x 0 = s.init x) ∧ SolvesBurgers s.k (fun t => |s.k * t * s.omega| < 1) u := by
  have hfix : ∀ x t, u x t = Real.sin ((x - s.k * u x t * t - s.xLeft) * s.omega) := by
    intro x t
    obtain ⟨v, e, hv⟩ := burgers_defined hb s hm (prev x t) x t
    have h := hu x t
    rw [e] at h
    have : v = u x t := by simpa using h
    rw [← this]
    exact hv
  refine ⟨fun x => ?_, ?_⟩
  · rw [hfix]
    simp [Burgers.init, hm]
  · refine ⟨fun x t => Real.cos ((x - s.xLeft) * s.omega - s.k * t * s.omega * u x t) * (0 - s.k * s.omega * u x t) /
        (1 + s.k * t * s.omega * Real.cos ((x - s.xLeft) * s.omega - s.k * t * s.omega * u x t)),
      fun x t => Real.cos ((x - s.xLeft) * s.omega - s.k * t * s.omega * u x t) * (s.omega - 0 * u x t) /
        (1 + s.k * t * s.omega * Real.cos ((x - s.xLeft) * s.omega - s.k * t * s.omega * u x t)),
      fun x t ht => ⟨?_, ?_, ?_⟩⟩
    · refine fixed_hasDerivAt (w := fun r => u x r) (α := fun _ => (x - s.xLeft) * s.omega)
        (β := fun r => s.k * r * s.omega) (t := t) (α' := 0) (β' := s.k * s.omega) ?_ (hasDerivAt_const _ _) ?_ ht
      · refine Filter.Eventually.of_forall fun r => (hfix x r).trans ?_
        congr 1
        ring
      · have := ((hasDerivAt_id t).const_mul s.k).mul_const s.omega
        simpa using this
    · refine fixed_hasDerivAt (w := fun y => u y t) (α := fun y => (y - s.xLeft) * s.omega)
        (β := fun _ => s.k * t * s.omega) (t := x) (α' := s.omega) (β' := 0) ?_ ?_ (hasDerivAt_const _ _) ht
      · refine Filter.Eventually.of_forall fun y => (hfix y t).trans ?_
        congr 1
        ring
      · have := ((hasDerivAt_id x).sub_const s.xLeft).mul_const s.omega
        simpa using this
    · ring

/-- Along a characteristic the answer is the initial value at its foot, as long as the waves have not broken. -/
theorem burgers_carried_partial {bisect : (ℝ → ℝ) → ℝ → ℝ → ℝ} (hb : Bisects bisect) (s : Burgers) (hm : s.mean = 0)
    (prev : Cache) (ξ : ℝ) {t : ℝ} (ht : |s.k * t * s.omega| < 1) :
    (s.exact bisect prev (ξ + s.k * s.init ξ * t) t).map Prod.fst = some (s.init ξ) := by
  obtain ⟨u, hu, huniq, he⟩ := burgers_unique_partial hb s hm (ξ + s.k * s.init ξ * t) ht
  rw [he]
  have : s.init ξ = u := by
    refine huniq _ ?_
    rw [add_sub_cancel_right]
    simp [Burgers.init, hm]
  rw [this]
  rfl

/-- The loop stops at the latest where a sign change is known. -/
theorem bracket_le {f : ℝ → ℝ} {start delta lo hi : ℝ} (hd : 0 < delta) (h : bracket f start delta = some (lo, hi)) (n : ℕ)
    (hn : f (start - delta - n * delta) * f (start + delta + n * delta) ≤ 0) :
    start - delta - n * delta ≤ lo ∧ hi ≤ start + delta + n * delta ∧ f lo * f hi ≤ 0 ∧ lo ≤ start ∧ start ≤ hi := by
  have hex : ∃ n : ℕ, ¬f (start - delta - n * delta) * f (start + delta + n * delta) > 0 := ⟨n, not_lt.2 hn⟩
  have hle : Nat.find hex ≤ n := Nat.find_min' hex (not_lt.2 hn)
  have hsp := Nat.find_spec hex
  have hle' : (Nat.find hex : ℝ) * delta ≤ n * delta := mul_le_mul_of_nonneg_right (by exact_mod_cast hle) hd.le
  have h0 : 0 ≤ (Nat.find hex : ℝ) * delta := by positivity
  have h' := (dif_pos hex).symm.trans h
  simp only [Option.some.injEq, Prod.mk.injEq] at h'
  rw [← h'.1, ← h'.2]
  exact ⟨by linarith, by linarith, not_lt.1 hsp, by linarith, by linarith⟩

/-- What the answer is when a sign change near the starting value is known. -/
theorem burgers_near {bisect : (ℝ → ℝ) → ℝ → ℝ → ℝ} (hb : Bisects bisect) (s : Burgers) (hm : s.mean = 0) (prev : Cache)
    (x t : ℝ) (n : ℕ)
    (hn : (s.start prev x - 2 / 100 - n * (2 / 100) -
        s.init (x - s.k * (s.start prev x - 2 / 100 - n * (2 / 100)) * t)) *
      (s.start prev x + 2 / 100 + n * (2 / 100) -
        s.init (x - s.k * (s.start prev x + 2 / 100 + n * (2 / 100)) * t)) ≤ 0) :
    ∃ u, (s.exact bisect prev x t).map Prod.fst = some u ∧ s.start prev x - 2 / 100 - n * (2 / 100) ≤ u ∧
      u ≤ s.start prev x + 2 / 100 + n * (2 / 100) := by
  have hc : Continuous fun u => u - s.init (x - s.k * u * t) := by
    unfold Burgers.init
    fun_prop
  obtain ⟨u, hu, _⟩ := burgers_defined hb s hm prev x t
  rw [Burgers.exact, if_neg (not_not.2 hm)] at hu ⊢
  dsimp only at hu ⊢
  cases hbr : bracket (fun u => u - s.init (x - s.k * u * t)) (s.start prev x) (2 / 100) with
  | none => simp [hbr] at hu
  | some p =>
    obtain ⟨lo, hi⟩ := p
    obtain ⟨h1, h2, h3, h4, h5⟩ := bracket_le (by norm_num) hbr n hn
    have hr := (hb _ lo hi hc (by linarith) h3).1
    exact ⟨_, rfl, by linarith [hr.1], by linarith [hr.2]⟩

/-- Afterwards the answer depends on what was asked before: a request made at once, and the same request made after one
for an earlier time at the same point, are answered differently. -/
theorem history {bisect : (ℝ → ℝ) → ℝ → ℝ → ℝ} (hb : Bisects bisect) :
    ∃ (s : Burgers) (x t₁ t₂ : ℝ), s.mean = 0 ∧ 0 < s.k ∧ 0 < t₁ ∧ t₁ < t₂ ∧
      ∀ u₁ prev₁, s.exact bisect (fun _ => none) x t₁ = some (u₁, prev₁) →
        (s.exact bisect prev₁ x t₂).map Prod.fst ≠ (s.exact bisect (fun _ => none) x t₂).map Prod.fst := by
  have hπ := Real.pi_gt_three
  have hπ4 := Real.pi_lt_d2
  have h3 : (√3 : ℝ) ^ 2 = 3 := Real.sq_sqrt (by norm_num)
  have h3p : (0 : ℝ) < √3 := Real.sqrt_pos.2 (by norm_num)
  have h3l : (1.73 : ℝ) < √3 := by nlinarith
  have h3u : (√3 : ℝ) < 1.7321 := by nlinarith
  refine ⟨⟨0, Real.pi, 0, 1⟩, 1 / 2, √3 / 9, 2, rfl, one_pos, by positivity, by linarith, ?_⟩
  set s : Burgers := ⟨0, Real.pi, 0, 1⟩ with hs
  have hinit : ∀ u t : ℝ, s.init (1 / 2 - s.k * u * t) = Real.cos (u * t * Real.pi) := by
    intro u t
    simp only [hs, Burgers.init]
    rw [show (1 / 2 - 1 * u * t - 0) * Real.pi = Real.pi / 2 - u * t * Real.pi by ring, Real.sin_pi_div_two_sub, add_zero]
  intro u₁ prev₁ h₁
  -- the earlier answer
  have hu₁ : u₁ = √3 / 2 ∧ prev₁ (1 / 2) = some u₁ := by
    obtain ⟨u, hu, huniq, he⟩ := burgers_unique_partial hb s rfl (1 / 2) (t := √3 / 9) (by
      simp only [hs]
      rw [abs_of_pos (by positivity)]
      nlinarith)
    rw [he] at h₁
    simp only [Option.some.injEq, Prod.mk.injEq] at h₁
    refine ⟨?_, ?_⟩
    · rw [← h₁.1]
      refine (huniq _ ?_).symm
      have : (1 / 2 - s.k * (√3 / 2) * (√3 / 9) - s.xLeft) * s.omega = Real.pi / 3 := by
        simp only [hs]
        linear_combination (-Real.pi / 18) * h3
      rw [this, Real.sin_pi_div_three]
    · rw [← h₁.2, Function.update_self, h₁.1]
  obtain ⟨hu₁, hp⟩ := hu₁
  have hst : s.start prev₁ (1 / 2) = √3 / 2 := by simp only [Burgers.start, hp, hu₁]
  have hst0 : s.start (fun _ => none) (1 / 2) = 1 := by
    simp only [Burgers.start]
    have := hinit 0 0
    simpa using this
  -- asked at once
  obtain ⟨v, hv, hv1, _⟩ := burgers_near hb s rfl (fun _ => none) (1 / 2) 2 0 (by
    rw [hst0, hinit, hinit]
    have e1 : Real.cos ((1 - 2 / 100 - (0 : ℕ) * (2 / 100)) * 2 * Real.pi) = Real.cos (1 / 25 * Real.pi) := by
      rw [show ((1 : ℝ) - 2 / 100 - (0 : ℕ) * (2 / 100)) * 2 * Real.pi = 2 * Real.pi - 1 / 25 * Real.pi by push_cast; ring,
        Real.cos_two_pi_sub]
    have hcos : (1 : ℝ) - (1 / 25 * Real.pi) ^ 2 / 2 ≤ Real.cos (1 / 25 * Real.pi) := Real.one_sub_sq_div_two_le_cos
    have hle := Real.cos_le_one ((1 + 2 / 100 + (0 : ℕ) * (2 / 100)) * 2 * Real.pi)
    rw [e1]
    refine mul_nonpos_of_nonpos_of_nonneg ?_ ?_
    · push_cast
      nlinarith
    · push_cast at hle ⊢
      linarith)
  -- asked after the earlier time: four steps reach 0.966
  obtain ⟨w, hw, _, hw2⟩ := burgers_near hb s rfl prev₁ (1 / 2) 2 4 (by
    rw [hst, hinit, hinit]
    have e1 : Real.cos ((√3 / 2 - 2 / 100 - (4 : ℕ) * (2 / 100)) * 2 * Real.pi) =
        Real.sin ((√3 / 2 - 17 / 20) * 2 * Real.pi) := by
      rw [show (√3 / 2 - 2 / 100 - ((4 : ℕ) : ℝ) * (2 / 100)) * 2 * Real.pi =
        (√3 / 2 - 17 / 20) * 2 * Real.pi - Real.pi / 2 + 2 * Real.pi by push_cast; ring, Real.cos_add_two_pi,
        Real.cos_sub_pi_div_two]
    have e2 : Real.cos ((√3 / 2 + 2 / 100 + (4 : ℕ) * (2 / 100)) * 2 * Real.pi) =
        Real.cos ((1 - (√3 / 2 + 1 / 10)) * 2 * Real.pi) := by
      rw [show (√3 / 2 + 2 / 100 + ((4 : ℕ) : ℝ) * (2 / 100)) * 2 * Real.pi =
        2 * Real.pi - (1 - (√3 / 2 + 1 / 10)) * 2 * Real.pi by push_cast; ring, Real.cos_two_pi_sub]
    have hcos : (1 : ℝ) - ((1 - (√3 / 2 + 1 / 10)) * 2 * Real.pi) ^ 2 / 2 ≤
        Real.cos ((1 - (√3 / 2 + 1 / 10)) * 2 * Real.pi) := Real.one_sub_sq_div_two_le_cos
    have hx0 : 0 < (√3 / 2 - 17 / 20) * 2 * Real.pi := by
      have : 0 < √3 / 2 - 17 / 20 := by linarith
      positivity
    have hsin : Real.sin ((√3 / 2 - 17 / 20) * 2 * Real.pi) < (√3 / 2 - 17 / 20) * 2 * Real.pi := Real.sin_lt hx0
    rw [e1, e2]
    refine mul_nonpos_of_nonneg_of_nonpos ?_ ?_
    · push_cast
      nlinarith
    · push_cast
      have h5 : (1 - (√3 / 2 + 1 / 10)) * 2 * Real.pi ≤ 0.221 := by nlinarith
      have h6 : 0 ≤ (1 - (√3 / 2 + 1 / 10)) * 2 * Real.pi := by
        have : 0 ≤ 1 - (√3 / 2 + 1 / 10) := by linarith
        positivity
      nlinarith)
  rw [hv, hw]
  rw [hst0] at hv1
  rw [hst] at hw2
  push_cast at hv1 hw2
  simp only [ne_eq, Option.some.injEq]
  intro e
  linarith

end MiniCFD.PyReference
