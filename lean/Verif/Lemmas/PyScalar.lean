import Verif.Model.PyScalar
import Verif.Spec.PyScalar
import Verif.Spec.Simple
import Mathlib.MeasureTheory.Integral.DivergenceTheorem
import Mathlib.Analysis.Calculus.Deriv.Pow
import Mathlib.Analysis.Calculus.Deriv.Mul
import Mathlib.Analysis.Calculus.Deriv.Add
import Mathlib.Tactic.Linarith
import Mathlib.Tactic.FieldSimp
import Mathlib.Tactic.FunProp

namespace MiniCFD.PyScalar
open MeasureTheory MiniCFD.Spec.PyScalar

open scoped Classical in
/-- A single jump. -/
noncomputable def jump (s A B x : ℝ) : ℝ := if x ≤ s then A else B

theorem jump_le {s A B x : ℝ} (h : x ≤ s) : jump s A B x = A := if_pos h
theorem jump_gt {s A B x : ℝ} (h : s < x) : jump s A B x = B := if_neg (not_le.2 h)

theorem jump_integrable (s A B a b : ℝ) : IntervalIntegrable (jump s A B) volume a b := by
  rcases le_total A B with h | h
  · refine Monotone.intervalIntegrable fun x y hxy => ?_
    by_cases hy : y ≤ s
    · rw [jump_le hy, jump_le (hxy.trans hy)]
    · rw [jump_gt (not_le.1 hy)]
      by_cases hx : x ≤ s
      · rwa [jump_le hx]
      · rw [jump_gt (not_le.1 hx)]
  · refine Antitone.intervalIntegrable fun x y hxy => ?_
    by_cases hy : y ≤ s
    · rw [jump_le hy, jump_le (hxy.trans hy)]
    · rw [jump_gt (not_le.1 hy)]
      by_cases hx : x ≤ s
      · rwa [jump_le hx]
      · rw [jump_gt (not_le.1 hx)]

theorem integral_const_of {w : ℝ → ℝ} {a b A : ℝ} (hab : a ≤ b) (h : ∀ x, a < x → x ≤ b → w x = A) :
    ∫ x in a..b, w x = A * (b - a) := by
  rw [intervalIntegral.integral_of_le hab,
    setIntegral_congr_fun (g := fun _ => A) measurableSet_Ioc (fun x hx => h x hx.1 hx.2),
    ← intervalIntegral.integral_of_le hab, intervalIntegral.integral_const, smul_eq_mul, mul_comm]

theorem jump_integral {s A B a b : ℝ} (has : a ≤ s) (hsb : s ≤ b) :
    ∫ x in a..b, jump s A B x = A * (s - a) + B * (b - s) := by
  rw [← intervalIntegral.integral_add_adjacent_intervals (jump_integrable s A B a s)
    (jump_integrable s A B s b), integral_const_of has fun x _ h => jump_le h,
    integral_const_of hsb fun x h _ => jump_gt h]

/-- A single jump is an entropy solution if it satisfies the entropy condition for all constants. -/
theorem jump_entropy {f : ℝ → ℝ} {s A B : ℝ}
    (h : ∀ c, kruzhkov f c B - kruzhkov f c A ≤ s * (|B - c| - |A - c|)) :
    IsEntropySolution f A B (jump s A B) := by
  refine ⟨⟨s, fun x hx => jump_le hx⟩, ⟨s + 1, fun x hx => jump_gt (by linarith)⟩,
    jump_integrable s A B, fun c a b hab => ?_⟩
  have e : ∀ x, |jump s A B x - c| = jump s |A - c| |B - c| x := by
    intro x
    by_cases hx : x ≤ s
    · rw [jump_le hx, jump_le hx]
    · rw [jump_gt (not_le.1 hx), jump_gt (not_le.1 hx)]
  rw [intervalIntegral.integral_congr fun x _ => e x]
  by_cases hb : b ≤ s
  · rw [integral_const_of hab fun x _ hx => jump_le (hx.trans hb), jump_le hb, jump_le (hab.trans hb)]
    linarith
  · rw [not_le] at hb
    by_cases ha : a ≤ s
    · rw [jump_integral ha hb.le, jump_le ha, jump_gt hb]
      have := h c
      linarith
    · rw [not_le] at ha
      rw [integral_const_of hab fun x hx _ => jump_gt (ha.trans hx), jump_gt hb, jump_gt ha]
      linarith

theorem linear_kruzhkov (a c u : ℝ) : kruzhkov (linear a 0).flux c u = a * |u - c| := by
  simp only [kruzhkov, linear, ← mul_sub]
  rw [mul_left_comm, sign_mul_self]

theorem burgers_kruzhkov (k c u : ℝ) :
    kruzhkov (burgers k).flux c u = k / 2 * (|u - c| * (u + c)) := by
  have : (burgers k).flux u - (burgers k).flux c = (u - c) * (k / 2 * (u + c)) := by
    simp only [burgers]; ring
  rw [kruzhkov, this, ← mul_assoc, sign_mul_self]
  ring

/-- The fan. -/
noncomputable def fan (k A B x : ℝ) : ℝ := max A (min B (x / k))

theorem fan_left {k A B x : ℝ} (hk : 0 < k) (h : x ≤ k * A) : fan k A B x = A := by
  have : x / k ≤ A := by rw [div_le_iff₀ hk]; linarith
  exact max_eq_left ((min_le_right _ _).trans this)

theorem fan_right {k A B x : ℝ} (hk : 0 < k) (hAB : A ≤ B) (h : k * B ≤ x) : fan k A B x = B := by
  have : B ≤ x / k := by rw [le_div_iff₀ hk]; linarith
  rw [fan, min_eq_left this, max_eq_right hAB]

theorem fan_mid {k A B x : ℝ} (hk : 0 < k) (h1 : k * A ≤ x) (h2 : x ≤ k * B) :
    fan k A B x = x / k := by
  have h3 : A ≤ x / k := by rw [le_div_iff₀ hk]; linarith
  have h4 : x / k ≤ B := by rw [div_le_iff₀ hk]; linarith
  rw [fan, min_eq_right h4, max_eq_right h3]

theorem fan_continuous (k A B : ℝ) : Continuous (fan k A B) := by unfold fan; fun_prop

theorem fan_entropy {k A B : ℝ} (hk : 0 < k) (hAB : A ≤ B) :
    IsEntropySolution (burgers k).flux A B (fan k A B) := by
  have hc := fan_continuous k A B
  refine ⟨⟨k * A, fun x hx => fan_left hk hx⟩, ⟨k * B, fun x hx => fan_right hk hAB hx⟩,
    fun a b => hc.intervalIntegrable a b, fun c a b _ => le_of_eq ?_⟩
  set G : ℝ → ℝ := fun x => x * |fan k A B x - c| - kruzhkov (burgers k).flux c (fan k A B x) with hG
  have hG' : G = fun x => x * |fan k A B x - c| -
      k / 2 * (|fan k A B x - c| * (fan k A B x + c)) := by
    funext x; simp only [hG, burgers_kruzhkov]
  refine MeasureTheory.integral_eq_of_hasDerivAt_off_countable G _ (s := {k * A, k * B, k * c})
    (Set.Finite.countable (by simp)) ?_ ?_ ?_
  · rw [hG']
    exact Continuous.continuousOn (by fun_prop)
  · rintro x ⟨-, hx⟩
    simp only [Set.mem_insert_iff, Set.mem_singleton_iff, not_or] at hx
    rcases lt_or_gt_of_ne hx.1 with h1 | h1
    · have e : G =ᶠ[nhds x] fun y => y * |A - c| - k / 2 * (|A - c| * (A + c)) := by
        filter_upwards [Iio_mem_nhds h1] with y hy
        rw [hG']
        simp only [fan_left hk (le_of_lt hy)]
      rw [fan_left hk h1.le]
      refine HasDerivAt.congr_of_eventuallyEq ?_ e
      simpa using ((hasDerivAt_id x).mul_const |A - c|).sub_const (k / 2 * (|A - c| * (A + c)))
    rcases lt_or_gt_of_ne hx.2.1 with h2 | h2
    swap
    · have e : G =ᶠ[nhds x] fun y => y * |B - c| - k / 2 * (|B - c| * (B + c)) := by
        filter_upwards [Ioi_mem_nhds h2] with y hy
        rw [hG']
        simp only [fan_right hk hAB (le_of_lt hy)]
      rw [fan_right hk hAB h2.le]
      refine HasDerivAt.congr_of_eventuallyEq ?_ e
      simpa using ((hasDerivAt_id x).mul_const |B - c|).sub_const (k / 2 * (|B - c| * (B + c)))
    rw [fan_mid hk h1.le h2.le]
    have hd : HasDerivAt (fun y => (y - k * c) ^ 2 / (2 * k)) ((x - k * c) / k) x := by
      have := (((hasDerivAt_id x).sub_const (k * c)).fun_pow 2).div_const (2 * k)
      refine this.congr_deriv ?_
      simp only [id, Nat.cast_ofNat, mul_one]
      field_simp
      norm_num
    rcases lt_or_gt_of_ne hx.2.2 with h3 | h3
    · have e : G =ᶠ[nhds x] fun y => -((y - k * c) ^ 2 / (2 * k)) := by
        filter_upwards [Ioi_mem_nhds h1, Iio_mem_nhds h2, Iio_mem_nhds h3] with y hy1 hy2 hy3
        rw [hG']
        simp only [fan_mid hk (le_of_lt hy1) (le_of_lt hy2)]
        have : y / k - c < 0 := by
          rw [sub_neg, div_lt_iff₀ hk]; have : y < k * c := hy3; linarith
        rw [abs_of_neg this]
        field_simp
        ring
      have : x / k - c < 0 := by rw [sub_neg, div_lt_iff₀ hk]; linarith
      rw [abs_of_neg this]
      refine HasDerivAt.congr_of_eventuallyEq ?_ e
      refine hd.neg.congr_deriv ?_
      field_simp
    · have e : G =ᶠ[nhds x] fun y => (y - k * c) ^ 2 / (2 * k) := by
        filter_upwards [Ioi_mem_nhds h1, Iio_mem_nhds h2, Ioi_mem_nhds h3] with y hy1 hy2 hy3
        rw [hG']
        simp only [fan_mid hk (le_of_lt hy1) (le_of_lt hy2)]
        have : 0 < y / k - c := by
          rw [sub_pos, lt_div_iff₀ hk]; have : k * c < y := hy3; linarith
        rw [abs_of_pos this]
        field_simp
        ring
      have : 0 < x / k - c := by rw [sub_pos, lt_div_iff₀ hk]; linarith
      rw [abs_of_pos this]
      refine HasDerivAt.congr_of_eventuallyEq ?_ e
      refine hd.congr_deriv ?_
      field_simp
  · exact Continuous.intervalIntegrable (by fun_prop) _ _

theorem burgersValue_fan {k A B : ℝ} (hk : 0 < k) (hAB : A ≤ B) (x : ℝ) :
    burgersValue k A B x = fan k A B x := by
  have hs : burgersSlopes k A B = (k * A, k * B) := if_pos hAB
  simp only [burgersValue, hs]
  split
  next h => exact (fan_left hk h).symm
  next h =>
    split
    next h2 => exact (fan_right hk hAB h2).symm
    next h2 =>
      rw [fan_mid hk (not_le.1 h).le (not_le.1 h2).le]
      have : A < B := by
        have := (not_le.1 h).trans (not_le.1 h2)
        exact lt_of_mul_lt_mul_left this hk.le
      have hne : B - A ≠ 0 := by linarith
      congr 1
      field_simp

theorem burgersValue_jump {k A B : ℝ} (hAB : B < A) (x : ℝ) :
    burgersValue k A B x = jump (k * ((A + B) / 2)) A B x := by
  have hs : burgersSlopes k A B = (k * ((A + B) / 2), k * ((A + B) / 2)) := if_neg (not_le.2 hAB)
  simp only [burgersValue, hs]
  split
  next h => exact (jump_le h).symm
  next h =>
    rw [jump_gt (not_le.1 h), if_pos (not_le.1 h).le]

/-- Conservation is the entropy inequality with constants beyond all values. -/
theorem conserves_of_entropy {f : ℝ → ℝ} {A B : ℝ} {w : ℝ → ℝ} (h : IsEntropySolution f A B w)
    {m M : ℝ} (hm : ∀ x, m ≤ w x) (hM : ∀ x, w x ≤ M) : Conserves f w := by
  intro a b hab
  have hi := h.integrable a b
  have h1 := h.entropy (m - 1) a b hab
  have h2 := h.entropy (M + 1) a b hab
  have e1 : ∀ x, |w x - (m - 1)| = w x - (m - 1) := fun x => abs_of_pos (by linarith [hm x])
  have e2 : ∀ x, |w x - (M + 1)| = (M + 1) - w x := fun x => by
    rw [abs_of_neg (by linarith [hM x])]; ring
  have q1 : ∀ x, kruzhkov f (m - 1) (w x) = f (w x) - f (m - 1) := fun x => by
    rw [kruzhkov, sign_pos (by linarith [hm x])]; simp
  have q2 : ∀ x, kruzhkov f (M + 1) (w x) = -(f (w x) - f (M + 1)) := fun x => by
    rw [kruzhkov, sign_neg (by linarith [hM x])]; simp
  simp only [e1, e2, q1, q2] at h1 h2
  rw [intervalIntegral.integral_sub hi intervalIntegrable_const, intervalIntegral.integral_const,
    smul_eq_mul] at h1
  rw [intervalIntegral.integral_sub intervalIntegrable_const hi, intervalIntegral.integral_const,
    smul_eq_mul] at h2
  apply le_antisymm <;> linarith

end MiniCFD.PyScalar
