import Verif.Spec.Waves
import Verif.Spec.Simple
import Mathlib.MeasureTheory.Integral.IntervalIntegral.Basic
import Mathlib.MeasureTheory.Measure.Lebesgue.Basic
import Mathlib.Algebra.BigOperators.Group.Finset.Basic
import Mathlib.Tactic.Linarith
import Mathlib.Tactic.LinearCombination
import Mathlib.Tactic.FieldSimp
import Mathlib.Tactic.Ring

/-! Integrals of fronts. -/

namespace MiniCFD.Waves

open Matrix MiniCFD.Spec.Waves MeasureTheory

/-- One beyond the front, nothing before it. -/
noncomputable def front (x : ℝ) : ℝ := if 0 < x then 1 else 0

theorem front_eq (c : ℝ) : (fun x => front (x - c)) = (Set.Ioi c).indicator fun _ => (1 : ℝ) := by
  funext x
  by_cases h : c < x
  · rw [Set.indicator_of_mem (Set.mem_Ioi.2 h)]
    exact if_pos (by linarith)
  · rw [Set.indicator_of_notMem (by simpa using h)]
    exact if_neg (by linarith)

theorem front_integrable (c a b : ℝ) : IntervalIntegrable (fun x => front (x - c)) volume a b := by
  rw [front_eq]
  refine ⟨?_, ?_⟩
  · exact (integrable_const (μ := volume.restrict (Set.Ioc a b)) (1 : ℝ)).indicator measurableSet_Ioi
  · exact (integrable_const (μ := volume.restrict (Set.Ioc b a)) (1 : ℝ)).indicator measurableSet_Ioi

theorem front_integral_le {a b : ℝ} (h : a ≤ b) (c : ℝ) :
    ∫ x in a..b, front (x - c) = max (b - c) 0 - max (a - c) 0 := by
  rw [front_eq, intervalIntegral.integral_of_le h, integral_indicator measurableSet_Ioi,
    Measure.restrict_restrict measurableSet_Ioi, Set.inter_comm, Set.Ioc_inter_Ioi, setIntegral_const]
  simp only [Measure.real, Real.volume_Ioc, smul_eq_mul, mul_one]
  rcases le_total a c with h1 | h1
  · rw [max_eq_right h1, max_eq_right (by linarith : a - c ≤ 0), sub_zero]
    rcases le_total b c with h2 | h2
    · rw [ENNReal.ofReal_of_nonpos (by linarith), max_eq_right (by linarith)]
      rfl
    · rw [ENNReal.toReal_ofReal (by linarith), max_eq_left (by linarith)]
  · rw [max_eq_left h1, max_eq_left (by linarith : (0 : ℝ) ≤ a - c), max_eq_left (by linarith : (0 : ℝ) ≤ b - c),
      ENNReal.toReal_ofReal (by linarith)]
    ring

theorem front_integral (a b c : ℝ) : ∫ x in a..b, front (x - c) = max (b - c) 0 - max (a - c) 0 := by
  rcases le_total a b with h | h
  · exact front_integral_le h c
  · rw [intervalIntegral.integral_symm, front_integral_le h]
    ring

/-- How long, times its speed, a front takes from one place to another. -/
theorem front_time (c y s t : ℝ) : c * ∫ τ in s..t, front (y - c * τ) = max (y - c * s) 0 - max (y - c * t) 0 := by
  have h : c * ∫ τ in s..t, front (y - c * τ) = ∫ x in y - c * t..y - c * s, front x :=
    intervalIntegral.smul_integral_comp_sub_mul front c y
  rw [h]
  have := front_integral (y - c * t) (y - c * s) 0
  simpa only [sub_zero] using this

theorem front_time_integrable (c y s t : ℝ) : IntervalIntegrable (fun τ => front (y - c * τ)) volume s t := by
  have hm : Measurable front := Measurable.ite measurableSet_Ioi measurable_const measurable_const
  have hm' : Measurable fun τ => front (y - c * τ) := hm.comp (by fun_prop)
  have hb : ∀ x, ‖front x‖ ≤ ‖(1 : ℝ)‖ := by
    intro x
    unfold front
    split_ifs <;> simp
  exact (intervalIntegrable_const (c := (1 : ℝ))).mono_fun hm'.aestronglyMeasurable
    (Filter.Eventually.of_forall fun x => hb _)

variable {K : Nat}

/-- The gain of an interval by one front, and what that says about time spent inside. -/
theorem gain (c y0 y1 s t : ℝ) :
    (∫ x in y0..y1, front (x - c * t)) - (∫ x in y0..y1, front (x - c * s)) =
      -(c * ∫ τ in s..t, (front (y1 - c * τ) - front (y0 - c * τ))) := by
  rw [intervalIntegral.integral_sub (front_time_integrable c y1 s t) (front_time_integrable c y0 s t), mul_sub, front_time,
    front_time, front_integral, front_integral]
  ring

/-- Several fronts from one place. -/
noncomputable def fan (vals : Fin K → ℝ) (wave : Fin K → Fin K → ℝ) (left : Fin K → ℝ) (x0 x t : ℝ) : Fin K → ℝ :=
  left + ∑ i, front (x - x0 - vals i * t) • wave i

/-- Time spent in an interval. -/
noncomputable def stay (c y0 y1 s t : ℝ) : ℝ := ∫ τ in s..t, (front (y1 - c * τ) - front (y0 - c * τ))

theorem fan_gain (vals : Fin K → ℝ) (wave : Fin K → Fin K → ℝ) (left : Fin K → ℝ) (x0 a b s t : ℝ) (r : Fin K) :
    (∫ x in a..b, fan vals wave left x0 x t r) - (∫ x in a..b, fan vals wave left x0 x s r) =
      -∑ i, stay (vals i) (a - x0) (b - x0) s t * (vals i * wave i r) := by
  have h : ∀ t, ∫ x in a..b, fan vals wave left x0 x t r = (b - a) * left r +
      ∑ i, (∫ x in a - x0..b - x0, front (x - vals i * t)) * wave i r := by
    intro t
    have e : (fun x => fan vals wave left x0 x t r) =
        fun x => left r + ∑ i, front (x - (x0 + vals i * t)) * wave i r := by
      funext x
      simp only [fan, Pi.add_apply, Finset.sum_apply, Pi.smul_apply, smul_eq_mul, sub_sub]
    rw [e, intervalIntegral.integral_add intervalIntegrable_const, intervalIntegral.integral_const, smul_eq_mul,
      intervalIntegral.integral_finset_sum]
    · congr 1
      refine Finset.sum_congr rfl fun i _ => ?_
      rw [intervalIntegral.integral_mul_const, front_integral, front_integral]
      rw [show b - (x0 + vals i * t) = b - x0 - vals i * t by ring, show a - (x0 + vals i * t) = a - x0 - vals i * t by ring]
    · exact fun i _ => (front_integrable _ a b).mul_const _
    · have := IntervalIntegrable.sum (μ := volume) (a := a) (b := b) Finset.univ (f := fun i x =>
        front (x - (x0 + vals i * t)) * wave i r) fun i _ => (front_integrable _ a b).mul_const _
      have e2 : (fun x => ∑ i, front (x - (x0 + vals i * t)) * wave i r) =
          ∑ i, fun x => front (x - (x0 + vals i * t)) * wave i r := by
        funext x
        rw [Finset.sum_apply]
      rw [e2]
      exact this
  rw [h, h, add_sub_add_left_eq_sub, ← Finset.sum_sub_distrib, ← Finset.sum_neg_distrib]
  refine Finset.sum_congr rfl fun i _ => ?_
  rw [← sub_mul, gain]
  unfold stay
  ring

theorem fan_through (A : Matrix (Fin K) (Fin K) ℝ) (vals : Fin K → ℝ) (wave : Fin K → Fin K → ℝ) (left : Fin K → ℝ)
    (x0 a b s t : ℝ) (r : Fin K) :
    ∫ τ in s..t, (A *ᵥ (fan vals wave left x0 b τ - fan vals wave left x0 a τ)) r =
      ∑ i, stay (vals i) (a - x0) (b - x0) s t * (A *ᵥ wave i) r := by
  have e : (fun τ => (A *ᵥ (fan vals wave left x0 b τ - fan vals wave left x0 a τ)) r) =
      fun τ => ∑ i, (front (b - x0 - vals i * τ) - front (a - x0 - vals i * τ)) * (A *ᵥ wave i) r := by
    funext τ
    have e1 : fan vals wave left x0 b τ - fan vals wave left x0 a τ =
        ∑ i, (front (b - x0 - vals i * τ) - front (a - x0 - vals i * τ)) • wave i := by
      unfold fan
      rw [add_sub_add_left_eq_sub, ← Finset.sum_sub_distrib]
      exact Finset.sum_congr rfl fun i _ => by rw [sub_smul]
    rw [e1, mulVec_sum, Finset.sum_apply]
    exact Finset.sum_congr rfl fun i _ => by rw [mulVec_smul, Pi.smul_apply, smul_eq_mul]
  rw [e, intervalIntegral.integral_finset_sum]
  · exact Finset.sum_congr rfl fun i _ => by rw [intervalIntegral.integral_mul_const, stay]
  · exact fun i _ => ((front_time_integrable _ _ s t).sub (front_time_integrable _ _ s t)).mul_const _

/-- A fan is a solution if and only if all intervals agree that fronts carry eigenvectors. -/
theorem fan_conserved (A : Matrix (Fin K) (Fin K) ℝ) (vals : Fin K → ℝ) (wave : Fin K → Fin K → ℝ) (left : Fin K → ℝ)
    (x0 : ℝ) : Conserved A (fan vals wave left x0) ↔ ∀ a b s t : ℝ, a ≤ b → s ≤ t → ∀ r,
      ∑ i, stay (vals i) (a - x0) (b - x0) s t * ((A *ᵥ wave i) r - vals i * wave i r) = 0 := by
  unfold Conserved
  refine forall_congr' fun a => forall_congr' fun b => forall_congr' fun s => forall_congr' fun t => forall_congr' fun _ =>
    forall_congr' fun _ => forall_congr' fun r => ?_
  rw [fan_gain, fan_through, neg_inj, eq_comm, ← sub_eq_zero, ← Finset.sum_sub_distrib]
  simp only [mul_sub]

theorem stay_eq {c : ℝ} (hc : c ≠ 0) (y0 y1 s t : ℝ) : stay c y0 y1 s t =
    (max (y1 - c * s) 0 - max (y1 - c * t) 0 - (max (y0 - c * s) 0 - max (y0 - c * t) 0)) / c := by
  unfold stay
  rw [intervalIntegral.integral_sub (front_time_integrable c y1 s t) (front_time_integrable c y0 s t), eq_div_iff hc,
    sub_mul, mul_comm _ c, front_time, mul_comm _ c, front_time]

end MiniCFD.Waves
