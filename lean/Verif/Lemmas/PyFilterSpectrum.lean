import Verif.Lemmas.PyFilter
import Mathlib.Data.ZMod.Basic
import Mathlib.Analysis.InnerProductSpace.Spectrum
import Mathlib.Analysis.InnerProductSpace.PiL2

/-!
# The dissipation of periodic grid functions

The symmetric operator `u ↦ (2 u i - u (i + 1) - u (i - 1)) / 4` has eigenvalues between zero and one, and the
dissipation is a polynomial of it.
-/

namespace MiniCFD.PyFilter

open MiniCFD.Spec.PyFilter

/-- The symbol of the dissipation as a polynomial in `t = sin² (θ/2)`. -/
noncomputable def symbol (t : ℝ) : ℝ :=
  weights 0 + 2 * weights 1 * (1 - 2 * t) + 2 * weights 2 * (2 * (1 - 2 * t) ^ 2 - 1)
    + 2 * weights 3 * (4 * (1 - 2 * t) ^ 3 - 3 * (1 - 2 * t)) + 2 * weights 4 * (8 * (1 - 2 * t) ^ 4 - 8 * (1 - 2 * t) ^ 2 + 1)
    + 2 * weights 5 * (16 * (1 - 2 * t) ^ 5 - 20 * (1 - 2 * t) ^ 3 + 5 * (1 - 2 * t))

theorem symbol_eq (t : ℝ) : symbol t =
    -0.000000000000064 * t ^ 2 + 0.047707800329792 * t ^ 3 - 0.528507112372736 * t ^ 4 + 1.480799312043008 * t ^ 5 := by
  unfold symbol weights; ring_nf

theorem symbol_lower {t : ℝ} (h0 : 0 ≤ t) (h1 : t ≤ 1) : -(1 / 10 ^ 23) ≤ symbol t := by
  have e : symbol t = t * (0.0005 * (t - 0.000000000064) ^ 2) - 0.0005 * 0.000000000064 ^ 2 * t
      + t ^ 3 * (1.480799312043008 * t ^ 2 - 0.528507112372736 * t + 0.047207800329792) := by
    rw [symbol_eq]; ring
  have q : 0 ≤ 1.480799312043008 * t ^ 2 - 0.528507112372736 * t + 0.047207800329792 := by
    nlinarith [sq_nonneg (t - 0.17845332)]
  have a : 0 ≤ t * (0.0005 * (t - 0.000000000064) ^ 2) := by positivity
  have b := mul_nonneg (pow_nonneg h0 3) q
  rw [e]
  linarith

theorem symbol_upper {t : ℝ} (h0 : 0 ≤ t) (h1 : t ≤ 1) : symbol t ≤ 1 := by
  have e : 1 - symbol t = (1 - t) * (1 + t + 1.000000000000064 * t ^ 2 + 0.952292199670272 * t ^ 3 + 1.480799312043008 * t ^ 4) := by
    rw [symbol_eq]; ring
  have : 0 ≤ (1 - t) * (1 + t + 1.000000000000064 * t ^ 2 + 0.952292199670272 * t ^ 3 + 1.480799312043008 * t ^ 4) :=
    mul_nonneg (by linarith) (by positivity)
  linarith

/-- The dissipation of a function of the integers that is an eigenfunction at all points. -/
theorem dissipation_eigen {u : ℤ → ℝ} {t : ℝ} (h : ∀ i, u (i + 1) + u (i - 1) = 2 * (1 - 2 * t) * u i) (i : ℤ) :
    dissipation u i = symbol t * u i := by
  have h' : ∀ i k l, k = i + 1 → l = i - 1 → u k + u l = 2 * (1 - 2 * t) * u i := by rintro i k l rfl rfl; exact h i
  have a1 := h i
  have b2 := h' (i + 1) (i + 2) i (by ring) (by ring)
  have c2 := h' (i - 1) i (i - 2) (by ring) (by ring)
  have b3 := h' (i + 2) (i + 3) (i + 1) (by ring) (by ring)
  have c3 := h' (i - 2) (i - 1) (i - 3) (by ring) (by ring)
  have b4 := h' (i + 3) (i + 4) (i + 2) (by ring) (by ring)
  have c4 := h' (i - 3) (i - 2) (i - 4) (by ring) (by ring)
  have b5 := h' (i + 4) (i + 5) (i + 3) (by ring) (by ring)
  have c5 := h' (i - 4) (i - 3) (i - 5) (by ring) (by ring)
  set c := 1 - 2 * t
  have e2 : u (i + 2) + u (i - 2) = 2 * (2 * c ^ 2 - 1) * u i := by linear_combination b2 + c2 + 2 * c * a1
  have e3 : u (i + 3) + u (i - 3) = 2 * (4 * c ^ 3 - 3 * c) * u i := by linear_combination b3 + c3 + 2 * c * e2 - a1
  have e4 : u (i + 4) + u (i - 4) = 2 * (8 * c ^ 4 - 8 * c ^ 2 + 1) * u i := by linear_combination b4 + c4 + 2 * c * e3 - e2
  have e5 : u (i + 5) + u (i - 5) = 2 * (16 * c ^ 5 - 20 * c ^ 3 + 5 * c) * u i := by
    linear_combination b5 + c5 + 2 * c * e4 - e3
  unfold dissipation symbol
  rw [a1, e2, e3, e4, e5]
  ring

section Periodic
variable {n : ℕ} [NeZero n]

/-- The operator on periodic grid functions. -/
noncomputable def second : EuclideanSpace ℝ (ZMod n) →ₗ[ℝ] EuclideanSpace ℝ (ZMod n) where
  toFun v := WithLp.toLp 2 fun x => (2 * v x - v (x + 1) - v (x - 1)) / 4
  map_add' v w := by ext x; simp only [PiLp.add_apply]; ring
  map_smul' r v := by ext x; simp only [PiLp.smul_apply, smul_eq_mul, RingHom.id_apply]; ring

theorem second_apply (v : EuclideanSpace ℝ (ZMod n)) (x : ZMod n) : second v x = (2 * v x - v (x + 1) - v (x - 1)) / 4 := rfl

theorem sum_shift (f : ZMod n → ℝ) (a : ZMod n) : ∑ x, f (x + a) = ∑ x, f x := Equiv.sum_comp (Equiv.addRight a) f

theorem inner_eq (v w : EuclideanSpace ℝ (ZMod n)) : inner ℝ v w = ∑ x, v x * w x := by
  simp only [PiLp.inner_apply, RCLike.inner_apply, conj_trivial, mul_comm]

theorem second_symmetric : (second (n := n)).IsSymmetric := by
  intro v w
  rw [inner_eq, inner_eq]
  have h1 := sum_shift (fun x => v x * w (x - 1)) 1
  have h2 := sum_shift (fun x => v (x - 1) * w x) 1
  simp only [add_sub_cancel_right] at h1 h2
  have e1 : ∑ x, second v x * w x = (2 * ∑ x, v x * w x - ∑ x, v (x + 1) * w x - ∑ x, v (x - 1) * w x) / 4 := by
    rw [Finset.mul_sum, ← Finset.sum_sub_distrib, ← Finset.sum_sub_distrib, Finset.sum_div]
    exact Finset.sum_congr rfl fun x _ => by rw [second_apply]; ring
  have e2 : ∑ x, v x * second w x = (2 * ∑ x, v x * w x - ∑ x, v x * w (x + 1) - ∑ x, v x * w (x - 1)) / 4 := by
    rw [Finset.mul_sum, ← Finset.sum_sub_distrib, ← Finset.sum_sub_distrib, Finset.sum_div]
    exact Finset.sum_congr rfl fun x _ => by rw [second_apply]; ring
  rw [e1, e2, h1, ← h2]
  ring

/-- Eigenvalues lie between zero and one. -/
theorem second_eigen {v : EuclideanSpace ℝ (ZMod n)} {t : ℝ} (h : second v = t • v) (hv : ∑ x, v x * v x = 1) : 0 ≤ t ∧ t ≤ 1 := by
  have hs : ∑ x, v (x + 1) * v (x + 1) = 1 := by rw [sum_shift (fun x => v x * v x)]; exact hv
  have h1 := sum_shift (fun x => v x * v (x - 1)) 1
  simp only [add_sub_cancel_right] at h1
  have e : ∑ x, v x * second v x = (2 * ∑ x, v x * v x - ∑ x, v x * v (x + 1) - ∑ x, v x * v (x - 1)) / 4 := by
    rw [Finset.mul_sum, ← Finset.sum_sub_distrib, ← Finset.sum_sub_distrib, Finset.sum_div]
    exact Finset.sum_congr rfl fun x _ => by rw [second_apply]; ring
  have e' : ∑ x, v x * second v x = t := by
    rw [h]
    calc ∑ x, v x * (t • v) x = t * ∑ x, v x * v x := by
          rw [Finset.mul_sum]; exact Finset.sum_congr rfl fun x _ => by simp only [PiLp.smul_apply, smul_eq_mul]; ring
      _ = t := by rw [hv, mul_one]
  have p1 : 0 ≤ ∑ x, (v (x + 1) - v x) ^ 2 := Finset.sum_nonneg fun x _ => sq_nonneg _
  have p2 : 0 ≤ ∑ x, (v (x + 1) + v x) ^ 2 := Finset.sum_nonneg fun x _ => sq_nonneg _
  have q1 : ∑ x, (v (x + 1) - v x) ^ 2 = ∑ x, v (x + 1) * v (x + 1) - 2 * ∑ x, v (x + 1) * v x + ∑ x, v x * v x := by
    rw [Finset.mul_sum, ← Finset.sum_sub_distrib, ← Finset.sum_add_distrib]
    exact Finset.sum_congr rfl fun x _ => by ring
  have q2 : ∑ x, (v (x + 1) + v x) ^ 2 = ∑ x, v (x + 1) * v (x + 1) + 2 * ∑ x, v (x + 1) * v x + ∑ x, v x * v x := by
    rw [Finset.mul_sum, ← Finset.sum_add_distrib, ← Finset.sum_add_distrib]
    exact Finset.sum_congr rfl fun x _ => by ring
  have c : ∑ x, v x * v (x + 1) = ∑ x, v (x + 1) * v x := Finset.sum_congr rfl fun x _ => mul_comm _ _
  rw [e', hv, ← h1, c] at e
  rw [q1, hs, hv] at p1
  rw [q2, hs, hv] at p2
  constructor <;> linarith

/-- One step of the filter on periodic grid functions. -/
noncomputable def step (sigma : ℝ) : EuclideanSpace ℝ (ZMod n) →ₗ[ℝ] EuclideanSpace ℝ (ZMod n) where
  toFun v := WithLp.toLp 2 fun x => v x - sigma * (weights 0 * v x + weights 1 * (v (x + 1) + v (x - 1))
    + weights 2 * (v (x + 2) + v (x - 2)) + weights 3 * (v (x + 3) + v (x - 3)) + weights 4 * (v (x + 4) + v (x - 4))
    + weights 5 * (v (x + 5) + v (x - 5)))
  map_add' v w := by ext x; simp only [PiLp.add_apply]; ring
  map_smul' r v := by ext x; simp only [PiLp.smul_apply, smul_eq_mul, RingHom.id_apply]; ring

theorem step_apply (sigma : ℝ) (v : EuclideanSpace ℝ (ZMod n)) (i : ℤ) :
    step sigma v (i : ZMod n) = v (i : ZMod n) - sigma * dissipation (fun k => v (k : ZMod n)) i := by
  unfold dissipation
  push_cast
  rfl

theorem step_eigen {v : EuclideanSpace ℝ (ZMod n)} {t : ℝ} (h : second v = t • v) (sigma : ℝ) :
    step sigma v = (1 - sigma * symbol t) • v := by
  have hx : ∀ x, (2 * v x - v (x + 1) - v (x - 1)) / 4 = t * v x := fun x => by
    have := congrArg (fun w : EuclideanSpace ℝ (ZMod n) => w x) h
    simpa only [second_apply, PiLp.smul_apply, smul_eq_mul] using this
  ext x
  obtain ⟨i, rfl⟩ := ZMod.intCast_surjective x
  rw [step_apply, dissipation_eigen (t := t)]
  · simp only [PiLp.smul_apply, smul_eq_mul]; ring
  · intro k
    have := hx (k : ZMod n)
    push_cast
    linarith

theorem step_norm {sigma : ℝ} (h0 : 0 ≤ sigma) (h2 : sigma ≤ 2) (v : EuclideanSpace ℝ (ZMod n)) :
    ‖step sigma v‖ ≤ (1 + 2 / 10 ^ 23) * ‖v‖ := by
  set b := (second_symmetric (n := n)).eigenvectorBasis rfl with hb
  set l := (second_symmetric (n := n)).eigenvalues rfl with hl
  have hev : ∀ k, second (b k) = l k • b k := fun k => (second_symmetric (n := n)).apply_eigenvectorBasis rfl k
  have hse : ∀ k, step sigma (b k) = (1 - sigma * symbol (l k)) • b k := fun k => step_eigen (hev k) sigma
  have hbd : ∀ k, |1 - sigma * symbol (l k)| ≤ 1 + 2 / 10 ^ 23 := by
    intro k
    have hn : ∑ x, (b k) x * (b k) x = 1 := by
      rw [← inner_eq, real_inner_self_eq_norm_sq, b.orthonormal.1 k]; norm_num
    obtain ⟨t0, t1⟩ := second_eigen (hev k) hn
    have s0 := symbol_lower t0 t1
    have s1 := symbol_upper t0 t1
    rw [abs_le]
    have m1 : sigma * symbol (l k) ≤ 2 := (mul_le_mul_of_nonneg_left s1 h0).trans (by linarith)
    have m2 := mul_le_mul_of_nonneg_left s0 h0
    have m3 : sigma * (1 / 10 ^ 23) ≤ 2 * (1 / 10 ^ 23) := mul_le_mul_of_nonneg_right h2 (by norm_num)
    constructor <;> linarith
  have hin : ∀ k, inner ℝ (b k) (step sigma v) = (1 - sigma * symbol (l k)) * inner ℝ (b k) v := by
    intro k
    conv_lhs => rw [← b.sum_repr v, map_sum]
    simp only [map_smul, hse, inner_sum, inner_smul_right, b.inner_eq_ite, b.repr_apply_apply]
    simp
    ring
  have e : ∀ w : EuclideanSpace ℝ (ZMod n), ‖w‖ ^ 2 = ∑ k, (inner ℝ (b k) w) ^ 2 := by
    intro w
    rw [← b.sum_sq_norm_inner_right w]
    simp
  have : ‖step sigma v‖ ^ 2 ≤ ((1 + 2 / 10 ^ 23) * ‖v‖) ^ 2 := by
    rw [mul_pow, e, e, Finset.mul_sum]
    refine Finset.sum_le_sum fun k _ => ?_
    rw [hin, mul_pow]
    refine mul_le_mul_of_nonneg_right ?_ (sq_nonneg _)
    exact sq_le_sq' (abs_le.1 (hbd k)).1 (abs_le.1 (hbd k)).2
  exact le_of_sq_le_sq this (by positivity)

end Periodic

end MiniCFD.PyFilter
