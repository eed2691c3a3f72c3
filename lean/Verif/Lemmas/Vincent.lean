import Verif.Model.Vincent
import Mathlib.Algebra.Polynomial.Derivative
import Mathlib.Analysis.Calculus.Deriv.Polynomial
import Mathlib.MeasureTheory.Integral.IntervalIntegral.FundThmCalculus
import Mathlib.Topology.Algebra.Polynomial
import Mathlib.Tactic.LinearCombination
import Mathlib.Tactic.FieldSimp
import Mathlib.Tactic.Ring
import Mathlib.Tactic.Linarith

/-! Legendre polynomials: derivative recurrences, differential equation, orthogonality. -/

namespace MiniCFD.Vincent
open Polynomial

/-- The Legendre polynomials as polynomials. -/
noncomputable def leg : Nat → ℝ[X]
  | 0 => 1
  | 1 => X
  | n + 2 => C ((n + 2 : ℝ)⁻¹) * (C (2 * n + 3 : ℝ) * X * leg (n + 1) - C (n + 1 : ℝ) * leg n)

theorem leg_eval (n : Nat) (x : ℝ) : (leg n).eval x = legendre n x := by
  induction n using Nat.strong_induction_on with
  | _ n ih =>
    match n with
    | 0 => simp [leg, legendre]
    | 1 => simp [leg, legendre]
    | n + 2 =>
      rw [leg, legendre]
      simp only [eval_mul, eval_sub, eval_C, eval_X, ih (n + 1) (by omega), ih n (by omega)]
      rw [div_eq_inv_mul]

/-- Bonnet's recurrence. -/
theorem bonnet (n : Nat) : C ((n : ℝ) + 2) * leg (n + 2) =
    C (2 * n + 3 : ℝ) * X * leg (n + 1) - C (n + 1 : ℝ) * leg n := by
  rw [leg, ← mul_assoc, ← C_mul, mul_inv_cancel₀ (by positivity), C_1, one_mul]

theorem C_inj_mul {a : ℝ} (ha : a ≠ 0) {p q : ℝ[X]} (h : C a * p = C a * q) : p = q :=
  mul_left_cancel₀ (C_ne_zero.2 ha) h

/-- `P'_{n+1} = (n+1) P_n + x P'_n` and `x P'_{n+1} = P'_n + (n+1) P_{n+1}`. -/
theorem leg_derivative (n : Nat) :
    derivative (leg (n + 1)) = C (n + 1 : ℝ) * leg n + X * derivative (leg n) ∧
    X * derivative (leg (n + 1)) = derivative (leg n) + C (n + 1 : ℝ) * leg (n + 1) := by
  induction n with
  | zero => simp [leg]
  | succ n ih =>
    obtain ⟨ha, hb⟩ := ih
    have hB := bonnet n
    have hD := congrArg derivative hB
    simp only [derivative_mul, derivative_sub, derivative_C, derivative_X, zero_mul, zero_add,
      mul_one] at hD
    have c1 : (C ((n : ℝ) + 1) : ℝ[X]) = C (n : ℝ) + 1 := by simp
    have c2 : (C ((n : ℝ) + 2) : ℝ[X]) = C (n : ℝ) + 2 := by simp; rfl
    have c3 : (C (2 * (n : ℝ) + 3) : ℝ[X]) = 2 * C (n : ℝ) + 3 := by simp; rfl
    have c4 : (C (((n + 1 : Nat) : ℝ) + 1) : ℝ[X]) = C (n : ℝ) + 2 := by
      rw [← c2]; congr 1; push_cast; ring
    simp only [c1, c2, c3] at hB hD ha hb
    rw [c4]
    have h1 : derivative (leg (n + 1 + 1)) =
        (C (n : ℝ) + 2) * leg (n + 1) + X * derivative (leg (n + 1)) := by
      refine C_inj_mul (a := (n : ℝ) + 2) (by positivity) ?_
      rw [c2]
      linear_combination hD + (C (n : ℝ) + 1) * hb
    refine ⟨h1, ?_⟩
    rw [h1]
    linear_combination X * hb - ha - hB

/-- `(x² - 1) P'_{n+1} = (n+1) (x P_{n+1} - P_n)`. -/
theorem leg_weighted (n : Nat) : (X ^ 2 - 1) * derivative (leg (n + 1)) =
    C (n + 1 : ℝ) * (X * leg (n + 1) - leg n) := by
  obtain ⟨ha, hb⟩ := leg_derivative n
  linear_combination X * hb - ha

/-- Legendre's differential equation. -/
theorem leg_ode (n : Nat) : derivative ((X ^ 2 - 1) * derivative (leg n)) =
    C ((n : ℝ) * (n + 1)) * leg n := by
  cases n with
  | zero => simp [leg]
  | succ n =>
    rw [leg_weighted]
    obtain ⟨_, hb⟩ := leg_derivative n
    simp only [derivative_mul, derivative_sub, derivative_C, derivative_X, zero_mul, zero_add,
      one_mul]
    have e : (C (((n + 1 : Nat) : ℝ) * (((n + 1 : Nat) : ℝ) + 1)) : ℝ[X]) =
        C (n + 1 : ℝ) * (C (n + 1 : ℝ) + 1) := by
      rw [C_mul]; push_cast; simp
    rw [e]
    linear_combination C (n + 1 : ℝ) * hb

/-- The integral over `[-1, 1]`. -/
noncomputable def integral (p : ℝ[X]) : ℝ := ∫ x in (-1 : ℝ)..1, p.eval x

theorem integral_derivative (p : ℝ[X]) : integral (derivative p) = p.eval 1 - p.eval (-1) := by
  unfold integral
  refine intervalIntegral.integral_eq_sub_of_hasDerivAt (fun x _ => p.hasDerivAt x) ?_
  exact (derivative p).continuous.intervalIntegrable _ _

theorem integral_add (p q : ℝ[X]) : integral (p + q) = integral p + integral q := by
  unfold integral
  simp only [eval_add]
  exact intervalIntegral.integral_add (p.continuous.intervalIntegrable _ _)
    (q.continuous.intervalIntegrable _ _)

theorem integral_C_mul (a : ℝ) (p : ℝ[X]) : integral (C a * p) = a * integral p := by
  unfold integral
  simp only [eval_mul, eval_C]
  exact intervalIntegral.integral_const_mul _ _

theorem integral_zero : integral 0 = 0 := by simp [integral]

theorem integral_sub (p q : ℝ[X]) : integral (p - q) = integral p - integral q := by
  have : p - q = p + C (-1) * q := by simp [sub_eq_add_neg]
  rw [this, integral_add, integral_C_mul]; ring

theorem integral_sum {ι : Type*} (s : Finset ι) (f : ι → ℝ[X]) :
    integral (∑ i ∈ s, f i) = ∑ i ∈ s, integral (f i) := by
  classical
  induction s using Finset.induction_on with
  | empty => simp [integral_zero]
  | insert a s h ih => rw [Finset.sum_insert h, Finset.sum_insert h, integral_add, ih]

/-- Green's identity for the operator `q ↦ ((x²-1) q')'`. -/
theorem green (p q : ℝ[X]) :
    integral (derivative ((X ^ 2 - 1) * derivative p) * q) =
      integral (p * derivative ((X ^ 2 - 1) * derivative q)) := by
  have h := integral_derivative ((X ^ 2 - 1) * (derivative p * q - p * derivative q))
  have e : derivative ((X ^ 2 - 1) * (derivative p * q - p * derivative q)) =
      derivative ((X ^ 2 - 1) * derivative p) * q - p * derivative ((X ^ 2 - 1) * derivative q) := by
    simp only [derivative_mul, derivative_sub]
    ring
  rw [e, integral_sub] at h
  simp only [eval_mul, eval_sub, eval_pow, eval_X, eval_one, one_pow, sub_self, zero_mul,
    neg_sq] at h
  linarith

/-- Legendre polynomials are orthogonal to the lower powers. -/
theorem leg_orthogonal_X_pow (n m : Nat) (hm : m < n) : integral (leg n * X ^ m) = 0 := by
  induction m using Nat.strong_induction_on with
  | _ m ih =>
    have hg := green (leg n) (X ^ m)
    rw [leg_ode, mul_assoc, integral_C_mul] at hg
    have hne : (n : ℝ) * (n + 1) - m * (m + 1) ≠ 0 := by
      have h1 : (m : ℝ) < n := by exact_mod_cast hm
      have h2 : (0 : ℝ) ≤ m := Nat.cast_nonneg m
      have : (m : ℝ) * (m + 1) < n * (n + 1) := by nlinarith
      linarith
    match m, ih, hm, hg, hne with
    | 0, _, _, hg, hne =>
      simp [integral_zero] at hg
      simp at hne
      rcases hg with h | h
      · rcases h with h | h
        · exact absurd h (by simpa using hne.1)
        · exact absurd h hne.2
      · simpa using h
    | 1, _, _, hg, hne =>
      have e : derivative ((X ^ 2 - 1) * derivative (X ^ 1 : ℝ[X])) = C 2 * X ^ 1 := by
        simp [derivative_mul]
        have : (C (2 : ℝ) : ℝ[X]) = 2 := rfl
        rw [this]; norm_num
      rw [e, mul_left_comm, integral_C_mul] at hg
      have : ((n : ℝ) * (n + 1) - 2) * integral (leg n * X ^ 1) = 0 := by linarith
      rcases mul_eq_zero.1 this with h | h
      · exact absurd h (by norm_num at hne ⊢; exact hne)
      · exact h
    | m + 2, ih, hm, hg, hne =>
      have e : derivative ((X ^ 2 - 1) * derivative (X ^ (m + 2) : ℝ[X])) =
          C (((m : ℝ) + 2) * (m + 3)) * X ^ (m + 2) - C (((m : ℝ) + 2) * (m + 1)) * X ^ m := by
        simp only [derivative_mul, derivative_sub, derivative_X_pow, derivative_one, C_mul, C_add,
          Nat.add_sub_cancel, derivative_C]
        simp
        have : (C (3 : ℝ) : ℝ[X]) = 3 := rfl
        have : (C (2 : ℝ) : ℝ[X]) = 2 := rfl
        simp only [*]
        ring
      have h0 := ih m (by omega) (by omega)
      rw [e, mul_sub, integral_sub, mul_left_comm, integral_C_mul, mul_left_comm, integral_C_mul,
        h0, mul_zero, sub_zero] at hg
      have : ((n : ℝ) * (n + 1) - (m + 2) * (m + 3)) * integral (leg n * X ^ (m + 2)) = 0 := by
        linarith
      rcases mul_eq_zero.1 this with h | h
      · refine absurd h ?_
        push_cast at hne
        intro h'
        exact hne (by linarith)
      · exact h

/-- Legendre polynomials are orthogonal to every polynomial of lower degree. -/
theorem leg_orthogonal (n : Nat) (q : ℝ[X]) (hq : q.degree < n) : integral (leg n * q) = 0 := by
  have hsum : q = ∑ i ∈ Finset.range n, C (q.coeff i) * X ^ i := by
    by_cases h0 : q = 0
    · subst h0; simp
    · have hnd : q.natDegree < n := (natDegree_lt_iff_degree_lt h0).2 hq
      exact as_sum_range_C_mul_X_pow' q hnd
  rw [hsum, Finset.mul_sum, integral_sum]
  refine Finset.sum_eq_zero fun i hi => ?_
  rw [mul_left_comm, integral_C_mul, leg_orthogonal_X_pow n i (Finset.mem_range.1 hi), mul_zero]

theorem legendre_one (n : Nat) : legendre n 1 = 1 := by
  induction n using Nat.strong_induction_on with
  | _ n ih =>
    match n with
    | 0 => rfl
    | 1 => rfl
    | n + 2 =>
      rw [legendre, ih (n + 1) (by omega), ih n (by omega)]
      have : (n : ℝ) + 2 ≠ 0 := by positivity
      field_simp
      ring

theorem legendre_neg (n : Nat) (x : ℝ) : legendre n (-x) = (-1) ^ n * legendre n x := by
  induction n using Nat.strong_induction_on with
  | _ n ih =>
    match n with
    | 0 => simp [legendre]
    | 1 => simp [legendre]
    | n + 2 =>
      rw [legendre, ih (n + 1) (by omega), ih n (by omega), legendre, pow_succ, pow_succ]
      have : (n : ℝ) + 2 ≠ 0 := by positivity
      field_simp
      ring

/-- The derivative of the `n`-th Legendre polynomial. -/
noncomputable def dleg (n : Nat) (x : ℝ) : ℝ := (derivative (leg n)).eval x

theorem dleg_zero (x : ℝ) : dleg 0 x = 0 := by simp [dleg, leg]

theorem dleg_succ (n : Nat) (x : ℝ) : dleg (n + 1) x = (n + 1) * legendre n x + x * dleg n x := by
  unfold dleg
  rw [(leg_derivative n).1]
  simp [leg_eval]

theorem hasDerivAt_legendre (n : Nat) (x : ℝ) : HasDerivAt (legendre n) (dleg n x) x := by
  have h := (leg n).hasDerivAt x
  have e : (fun x => (leg n).eval x) = legendre n := funext fun x => leg_eval n x
  rwa [e] at h

/-- The loop holds the derivatives of three successive Legendre polynomials. -/
theorem loop_inv (x : ℝ) (k : Nat) :
    (List.range (k + 2)).foldl (pass x) ⟨0, 0, 0⟩ =
      ⟨dleg k x, dleg (k + 1) x, dleg (k + 2) x⟩ := by
  induction k with
  | zero =>
    simp [List.range_succ, pass, dleg_succ, dleg_zero, legendre]
    norm_num
  | succ k ih =>
    rw [List.range_succ, List.foldl_append, ih]
    simp only [List.foldl_cons, List.foldl_nil, pass]
    rw [if_pos (by omega)]
    rw [dleg_succ (k + 1 + 1)]
    push_cast
    congr 1
    rw [show (k : ℝ) + 2 + 1 = k + 1 + 1 + 1 by ring]

theorem dleg_one (n : Nat) : dleg n 1 = n * (n + 1) / 2 := by
  induction n with
  | zero => simp [dleg_zero]
  | succ n ih => rw [dleg_succ, ih, legendre_one]; push_cast; ring

theorem dleg_neg (n : Nat) (x : ℝ) : dleg (n + 1) (-x) = (-1) ^ n * dleg (n + 1) x := by
  induction n with
  | zero => simp [dleg_succ, dleg_zero, legendre]
  | succ n ih =>
    rw [dleg_succ, ih, legendre_neg, dleg_succ (n + 1), pow_succ]
    ring

end MiniCFD.Vincent
