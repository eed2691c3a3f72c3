import Mathlib.Algebra.BigOperators.Ring.Finset
import Mathlib.Algebra.Order.BigOperators.Group.Finset
import Mathlib.Data.Real.Basic
import Mathlib.Tactic.Linarith
import Mathlib.Tactic.LinearCombination
import Mathlib.Tactic.Positivity
import Mathlib.Tactic.NormNum
import Mathlib.Tactic.FieldSimp
import Mathlib.Tactic.Ring

/-! # Lemmas for C128: the methods of third order on the upwind differences -/

namespace MiniCFD.PyFirst

variable {ι : Type*} [Fintype ι]

/-- The upwind difference, `e` being the map to the upwind neighbour. -/
def drop (e : Equiv.Perm ι) (u : ι → ℝ) (i : ι) : ℝ := u (e i) - u i

/-- The third order step for a Courant number `v`. -/
noncomputable def third (e : Equiv.Perm ι) (v : ℝ) (u : ι → ℝ) (i : ι) : ℝ :=
  u i + v * drop e u i + v ^ 2 / 2 * drop e (drop e u) i + v ^ 3 / 6 * drop e (drop e (drop e u)) i

theorem sum_form (e : Equiv.Perm ι) (u : ι → ℝ) (x1 x2 x3 x4 y1 y2 y3 z1 z2 t : ℝ) :
    ∑ i, (x1 * u i ^ 2 + x2 * u (e i) ^ 2 + x3 * u (e (e i)) ^ 2 + x4 * u (e (e (e i))) ^ 2 +
      y1 * (u i * u (e i)) + y2 * (u (e i) * u (e (e i))) + y3 * (u (e (e i)) * u (e (e (e i)))) +
      z1 * (u i * u (e (e i))) + z2 * (u (e i) * u (e (e (e i)))) + t * (u i * u (e (e (e i))))) =
    (x1 + x2 + x3 + x4) * ∑ i, u i ^ 2 + (y1 + y2 + y3) * ∑ i, u i * u (e i) +
      (z1 + z2) * ∑ i, u i * u (e (e i)) + t * ∑ i, u i * u (e (e (e i))) := by
  have sh : ∀ f : ι → ℝ, ∑ i, f (e i) = ∑ i, f i := fun f => Equiv.sum_comp e f
  simp only [Finset.sum_add_distrib, ← Finset.mul_sum]
  rw [sh fun i => u i ^ 2, sh fun i => u (e i) ^ 2, sh fun i => u i ^ 2, sh fun i => u (e (e i)) ^ 2,
    sh fun i => u (e i) ^ 2, sh fun i => u i ^ 2, sh fun i => u i * u (e i), sh fun i => u (e i) * u (e (e i)),
    sh fun i => u i * u (e i), sh fun i => u i * u (e (e i))]
  ring

/-- The coefficients of the loss of energy. -/
noncomputable def r1 (v : ℝ) : ℝ := 2 * v - v ^ 3 / 3
noncomputable def r2 (v : ℝ) : ℝ := v ^ 2 * (4 / 3 - 4 * v / 3 + 2 * v ^ 2 / 3 - 2 * v ^ 3 / 9)

/-- What a third order step loses, as a sum of squares. -/
theorem loss (e : Equiv.Perm ι) (u : ι → ℝ) (v s c d : ℝ) (h1 : c + 2 * s * r2 v = r1 v) (h0 : d + r2 v * s ^ 2 + 2 * c = 2) :
    ∑ i, u i ^ 2 - ∑ i, third e v u i ^ 2 = v / 2 * ∑ i,
      (r2 v * ((1 - s) * (u (e i) - u (e (e i))) - ((u i - u (e i)) + (u (e (e i)) - u (e (e (e i))))) / 2) ^ 2 +
        c / 2 * (u i - u (e (e i))) ^ 2 + d * (u i - u (e i)) ^ 2) := by
  have e1 : ∀ i, third e v u i = (1 - v + v ^ 2 / 2 - v ^ 3 / 6) * u i + (v - v ^ 2 + v ^ 3 / 2) * u (e i) +
      (v ^ 2 / 2 - v ^ 3 / 2) * u (e (e i)) + v ^ 3 / 6 * u (e (e (e i))) := fun i => by
    unfold third drop; ring
  have hd : d = 2 - r2 v * s ^ 2 - 2 * c := by linarith
  have hc : c = r1 v - 2 * s * r2 v := by linarith
  have f1 := sum_form e u ((1 - v + v ^ 2 / 2 - v ^ 3 / 6) ^ 2) ((v - v ^ 2 + v ^ 3 / 2) ^ 2) ((v ^ 2 / 2 - v ^ 3 / 2) ^ 2)
    ((v ^ 3 / 6) ^ 2) (2 * (1 - v + v ^ 2 / 2 - v ^ 3 / 6) * (v - v ^ 2 + v ^ 3 / 2))
    (2 * (v - v ^ 2 + v ^ 3 / 2) * (v ^ 2 / 2 - v ^ 3 / 2)) (2 * (v ^ 2 / 2 - v ^ 3 / 2) * (v ^ 3 / 6))
    (2 * (1 - v + v ^ 2 / 2 - v ^ 3 / 6) * (v ^ 2 / 2 - v ^ 3 / 2)) (2 * (v - v ^ 2 + v ^ 3 / 2) * (v ^ 3 / 6))
    (2 * (1 - v + v ^ 2 / 2 - v ^ 3 / 6) * (v ^ 3 / 6))
  have f2 := sum_form e u (r2 v / 4 + c / 2 + d) (r2 v * (3 / 2 - s) ^ 2 + d) (r2 v * (3 / 2 - s) ^ 2 + c / 2) (r2 v / 4)
    (-(r2 v * (3 / 2 - s)) - 2 * d) (-(2 * r2 v * (3 / 2 - s) ^ 2)) (-(r2 v * (3 / 2 - s)))
    (r2 v * (3 / 2 - s) - c) (r2 v * (3 / 2 - s)) (-(r2 v / 2))
  have g1 : ∑ i, third e v u i ^ 2 = _ := (Finset.sum_congr rfl fun i _ => by rw [e1 i]; ring).trans f1
  have g2 : ∑ i, (r2 v * ((1 - s) * (u (e i) - u (e (e i))) - ((u i - u (e i)) + (u (e (e i)) - u (e (e (e i))))) / 2) ^ 2 +
      c / 2 * (u i - u (e (e i))) ^ 2 + d * (u i - u (e i)) ^ 2) = _ := (Finset.sum_congr rfl fun i _ => by ring).trans f2
  rw [g1, g2, hd, hc]
  unfold r1 r2
  ring

/-- Up to a Courant number of 1.256 a third order step does not raise the energy. -/
theorem third_energy (e : Equiv.Perm ι) (u : ι → ℝ) {v : ℝ} (h0 : 0 ≤ v) (h1 : v ≤ 1256 / 1000) :
    ∑ i, third e v u i ^ 2 ≤ ∑ i, u i ^ 2 := by
  have hf : 0 < 4 / 3 - 4 * v / 3 + 2 * v ^ 2 / 3 - 2 * v ^ 3 / 9 := by
    nlinarith [mul_nonneg h0 (sub_nonneg.2 h1), mul_nonneg (mul_nonneg h0 h0) (sub_nonneg.2 h1), sq_nonneg (v - 1)]
  have hr2 : 0 ≤ r2 v := by unfold r2; positivity
  obtain ⟨s, c, d, hc, hd, e1, e2⟩ : ∃ s c d : ℝ, 0 ≤ c ∧ 0 ≤ d ∧ c + 2 * s * r2 v = r1 v ∧ d + r2 v * s ^ 2 + 2 * c = 2 := by
    rcases h0.eq_or_lt with rfl | hv
    · exact ⟨0, 0, 2, le_rfl, by norm_num, by simp [r1], by simp⟩
    rcases le_total v (124 / 100) with hm | hm
    · have hp : 0 < r2 v := by unfold r2; positivity
      refine ⟨r1 v / (2 * r2 v), 0, 2 - r1 v ^ 2 / (4 * r2 v), le_rfl, ?_, by field_simp; ring, by field_simp; ring⟩
      rw [sub_nonneg, div_le_iff₀ (by positivity)]
      have hh : 0 ≤ 20 / 3 - 32 * v / 3 + 20 * v ^ 2 / 3 - 16 * v ^ 3 / 9 - v ^ 4 / 9 := by
        have a0 := sub_nonneg.2 hm
        nlinarith [mul_nonneg h0 a0, mul_nonneg (mul_nonneg h0 h0) a0, mul_nonneg (mul_nonneg (mul_nonneg h0 h0) h0) a0,
          mul_nonneg a0 (sq_nonneg (v - 1))]
      have := mul_nonneg (sq_nonneg v) hh
      unfold r1 r2
      linarith
    · refine ⟨2, r1 v - 4 * r2 v, 2 - 2 * r1 v + 4 * r2 v, ?_, ?_, by ring, by ring⟩
      · have : 0 ≤ 2 - v ^ 2 / 3 - 4 * v * (4 / 3 - 4 * v / 3 + 2 * v ^ 2 / 3 - 2 * v ^ 3 / 9) := by
          have a0 := sub_nonneg.2 hm
          have a1 := sub_nonneg.2 h1
          nlinarith [mul_nonneg a0 a1, mul_nonneg (mul_nonneg h0 a0) a1, mul_nonneg (mul_nonneg (mul_nonneg h0 h0) a0) a1]
        have := mul_nonneg h0 this
        unfold r1 r2
        linarith
      · have g1 : 0 ≤ 1 - v + 2 * v ^ 2 / 3 := by nlinarith [sq_nonneg (v - 3 / 4)]
        have g2 : 0 ≤ 1 - v + v ^ 2 - 2 * v ^ 3 / 3 := by
          have a0 := sub_nonneg.2 hm
          have a1 := sub_nonneg.2 h1
          nlinarith [mul_nonneg a0 a1, mul_nonneg (mul_nonneg h0 a0) a1]
        have := mul_nonneg g1 g2
        unfold r1 r2
        linarith
  have := loss e u v s c d e1 e2
  have hpos : 0 ≤ v / 2 * ∑ i,
      (r2 v * ((1 - s) * (u (e i) - u (e (e i))) - ((u i - u (e i)) + (u (e (e i)) - u (e (e (e i))))) / 2) ^ 2 +
        c / 2 * (u i - u (e (e i))) ^ 2 + d * (u i - u (e i)) ^ 2) :=
    mul_nonneg (by linarith) (Finset.sum_nonneg fun i _ => by positivity)
  linarith

end MiniCFD.PyFirst
