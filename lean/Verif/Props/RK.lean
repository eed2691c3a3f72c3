import Verif.Lemmas.RK
import Mathlib.Algebra.Polynomial.Derivative
import Mathlib.Algebra.Polynomial.Degree.Lemmas
import Mathlib.Algebra.Polynomial.Eval.Degree
import Mathlib.Analysis.SpecialFunctions.ExpDeriv
import Mathlib.Tactic.NormNum
import Mathlib.Tactic.IntervalCases

/-! C28: the Runge-Kutta steppers realise their advertised order. -/

namespace MiniCFD.RK
open MiniCFD.Spec.RK

variable {K V : Type*} [Field K] [AddCommGroup V] [Module K V]

/-- On `u' = A u` one step applies the exponential series of `dt A` cut after the advertised
order. -/
theorem linear_step [CharZero K] (k : Stepper) (A : V →ₗ[K] V) (t dt : K) (s : Sys K V) :
    (update k (constant A) t dt s).sol = expSeries k.order dt A s.sol := by
  rw [update_sol]
  cases k
  · exact step1_linear A t dt _
  · exact step2_linear A t dt _
  · exact step3_linear A t dt _

/-- … and `n` steps apply it `n` times, whatever happened before. -/
theorem linear_steps [CharZero K] (k : Stepper) (A : V →ₗ[K] V) (t dt : K) (n : ℕ) (s : Sys K V) :
    (run k (constant A) t dt n s).sol = (expSeries k.order dt A)^[n] s.sol := by
  induction n with
  | zero => rfl
  | succ n ih =>
    rw [Function.iterate_succ_apply', ← ih]
    exact linear_step _ _ _ _ _

/-- On a quadrature problem `u' = P'(t)` one step is exact for every polynomial `P` whose degree
does not exceed the advertised order. -/
theorem quadrature (k : Stepper) (P : Polynomial ℝ) (hP : P.natDegree ≤ k.order) (t dt : ℝ)
    (s : Sys ℝ ℝ) :
    (update k (fun τ _ => P.derivative.eval τ) t dt s).sol =
      s.sol + (P.eval (t + dt) - P.eval t) := by
  have hs : P = ∑ i ∈ Finset.range 4, Polynomial.monomial i (P.coeff i) := by
    refine P.as_sum_range' 4 ?_
    cases k <;> simp only [Stepper.order] at hP <;> omega
  have hz : ∀ i, k.order < i → P.coeff i = 0 := fun i hi =>
    Polynomial.coeff_eq_zero_of_natDegree_lt (by omega)
  have e : ∀ τ : ℝ, P.eval τ = P.coeff 0 + P.coeff 1 * τ + P.coeff 2 * τ ^ 2 + P.coeff 3 * τ ^ 3 := by
    intro τ
    conv_lhs => rw [hs]
    simp [Finset.sum_range_succ, Polynomial.eval_finset_sum, Polynomial.eval_monomial]
  have e' : ∀ τ : ℝ, P.derivative.eval τ =
      P.coeff 1 + 2 * P.coeff 2 * τ + 3 * P.coeff 3 * τ ^ 2 := by
    intro τ
    conv_lhs => rw [hs]
    simp [Finset.sum_range_succ, Polynomial.derivative_monomial, Polynomial.eval_monomial]
    ring
  rw [update_sol, e, e]
  cases k with
  | rk1 =>
    have h2 := hz 2 (by simp [Stepper.order]); have h3 := hz 3 (by simp [Stepper.order])
    simp only [step, step1, e', h2, h3, smul_eq_mul]
    ring
  | rk2 =>
    have h3 := hz 3 (by simp [Stepper.order])
    simp only [step, step2, step1, e', h3, smul_eq_mul]
    ring
  | rk3 =>
    simp only [step, step3, half3, step1, e', smul_eq_mul]
    ring

/-- A steady state is kept for ever. -/
theorem steady [CharZero K] (k : Stepper) (R : K → V → V) (t dt : K) (n : ℕ) (s : Sys K V)
    (h : ∀ τ, R τ s.sol = 0) : (run k R t dt n s).sol = s.sol := by
  have h1 : ∀ τ u, (∀ σ, R σ u = 0) → step1 R τ dt u = u := fun τ u hu => by
    rw [step1, hu, smul_zero, add_zero]
  have e : ∀ τ u, (∀ σ, R σ u = 0) → step k R τ dt u = u := by
    intro τ u hu
    cases k
    · exact h1 τ u hu
    · change step2 R τ dt u = u
      rw [step2, h1 τ u hu, h1 _ u hu]; match_scalars; field_simp; norm_num
    · change step3 R τ dt u = u
      have : half3 R τ dt u = u := by
        rw [half3, h1 τ u hu, h1 _ u hu]; match_scalars; field_simp; norm_num
      rw [step3, this, h1 _ u hu]; match_scalars; field_simp; norm_num
  induction n with
  | zero => rfl
  | succ n ih => rw [run_succ_sol, ih, e _ _ h]

/-- The residual is evaluated once per stage, the first time at the current state, at the times of
the strong-stability-preserving tableau. -/
theorem stage_times (k : Stepper) (R : K → V → V) (t dt : K) (s : Sys K V) :
    ∃ us : List (K × V), (update k R t dt s).evals = s.evals ++ us ∧
      us.head? = some (t, s.sol) ∧
      us.map Prod.fst = match k with
        | .rk1 => [t]
        | .rk2 => [t, t + dt]
        | .rk3 => [t, t + dt, t + dt / 2] := by
  cases k
  · exact ⟨_, rfl, rfl, rfl⟩
  · exact ⟨[(t, s.sol), (t + dt, s.sol + dt • R t s.sol)], by
      simp [update, update2, eulerUpdate, nextSolution, Sys.residual, Sys.setTime, Sys.setSol],
      rfl, rfl⟩
  · exact ⟨[(t, s.sol), (t + dt, s.sol + dt • R t s.sol), (t + dt / 2, _)], by
      simp only [update, update3, eulerUpdate, nextSolution, Sys.residual, Sys.setTime, Sys.setSol,
        List.append_assoc, List.cons_append, List.nil_append]
      rfl,
      rfl, rfl⟩

/-- After a step the clock of the system shows the time of the last stage: the start of the step
for the first order scheme, its end for the second and its middle for the third. -/
theorem clock_after (k : Stepper) (R : K → V → V) (t dt : K) (s : Sys K V) :
    (update k R t dt s).time = match k with
      | .rk1 => t
      | .rk2 => t + dt
      | .rk3 => t + dt / 2 := by
  cases k <;> rfl

/-- The result of a step depends on nothing but the solution column found in the system. -/
theorem history_free (k : Stepper) (R : K → V → V) (t dt : K) (s s' : Sys K V)
    (h : s.sol = s'.sol) : (update k R t dt s).sol = (update k R t dt s').sol := by
  rw [update_sol, update_sol, h]

/-- Strong stability: a convex set of columns that is invariant under forward Euler steps of size
`dt` is invariant under every stepper, for any number of steps. -/
theorem strong_stability {V : Type*} [AddCommGroup V] [Module ℝ V] (k : Stepper) (R : ℝ → V → V)
    (S : V → Prop) (hS : ConvexSet S) (dt : ℝ) (hR : ∀ t u, S u → S (u + dt • R t u))
    (t : ℝ) (n : ℕ) (s : Sys ℝ V) (h : S s.sol) : S (run k R t dt n s).sol := by
  have e : ∀ τ u, S u → S (step k R τ dt u) := by
    intro τ u hu
    have h1 : ∀ σ v, S v → S (step1 R σ dt v) := fun σ v hv => hR σ v hv
    cases k with
    | rk1 => exact h1 τ u hu
    | rk2 =>
      have := hS _ _ (h1 (τ + dt) _ (h1 τ u hu)) hu (1 / 2) (by norm_num) (by norm_num)
      have e : step2 R τ dt u = (1 / 2 : ℝ) • step1 R (τ + dt) dt (step1 R τ dt u) +
          (1 - 1 / 2 : ℝ) • u := by
        rw [step2]; match_scalars <;> norm_num
      change S (step2 R τ dt u)
      rwa [e]
    | rk3 =>
      have h2 := hS _ _ (h1 (τ + dt) _ (h1 τ u hu)) hu (1 / 4) (by norm_num) (by norm_num)
      have e2 : half3 R τ dt u = (1 / 4 : ℝ) • step1 R (τ + dt) dt (step1 R τ dt u) +
          (1 - 1 / 4 : ℝ) • u := by
        rw [half3]; match_scalars <;> norm_num
      rw [← e2] at h2
      have h3 := hS _ _ (h1 (τ + dt / 2) _ h2) hu (2 / 3) (by norm_num) (by norm_num)
      have e : step3 R τ dt u = (2 / 3 : ℝ) • step1 R (τ + dt / 2) dt (half3 R τ dt u) +
          (1 - 2 / 3 : ℝ) • u := by
        rw [step3]; match_scalars <;> norm_num
      change S (step3 R τ dt u)
      rwa [e]
  induction n with
  | zero => exact h
  | succ n ih => rw [run_succ_sol]; exact e _ _ ih

section order
variable {E : Type*} [NormedAddCommGroup E] [NormedSpace ℝ E] {a b : ℝ}

/-- First order convergence on every smooth, nonlinear, time dependent problem: after any number of
steps inside `[a,b]` the error is at most a constant times `h`. -/
theorem rk1_converges {R : ℝ → E → E} {d : ℕ → ℝ → E} {L : ℝ} (h0 : 0 ≤ L) (hL : Lip R L)
    (H : SmoothSolution R a b 1 d) :
    ∃ C, ∀ (n : ℕ) (h : ℝ), 0 ≤ h → h * n ≤ b - a → ∀ s : Sys ℝ E, s.sol = d 0 a →
      ‖(run .rk1 R a h n s).sol - d 0 (a + h * n)‖ ≤ C * h ^ 1 :=
  global_of_local .rk1 hL h0 (local1 H)

/-- Second order convergence. -/
theorem rk2_converges {R : ℝ → E → E} {d : ℕ → ℝ → E} {L : ℝ} (h0 : 0 ≤ L) (hL : Lip R L)
    (H : SmoothSolution R a b 2 d) :
    ∃ C, ∀ (n : ℕ) (h : ℝ), 0 ≤ h → h * n ≤ b - a → ∀ s : Sys ℝ E, s.sol = d 0 a →
      ‖(run .rk2 R a h n s).sol - d 0 (a + h * n)‖ ≤ C * h ^ 2 :=
  global_of_local .rk2 hL h0 (local2 hL H)

/-- Third order convergence. -/
theorem rk3_converges {R : ℝ → E → E} {d : ℕ → ℝ → E} {L : ℝ} (h0 : 0 ≤ L) (hL : Lip R L)
    {J : ℝ → E →L[ℝ] E} (hJ : Linearisable R a b (d 0) J) (H : SmoothSolution R a b 3 d) :
    ∃ C, ∀ (n : ℕ) (h : ℝ), 0 ≤ h → h * n ≤ b - a → ∀ s : Sys ℝ E, s.sol = d 0 a →
      ‖(run .rk3 R a h n s).sol - d 0 (a + h * n)‖ ≤ C * h ^ 3 :=
  global_of_local .rk3 hL h0 (local3 hJ H)

end order

/-! Concrete cases. -/

/-- `u' = -u + t` on `[0,1]` with `u = exp (-t) + t - 1`. -/
example : ∃ C, ∀ (n : ℕ) (h : ℝ), 0 ≤ h → h * n ≤ 1 - 0 → ∀ s : Sys ℝ ℝ, s.sol = 0 →
    ‖(run .rk3 (fun t u => -u + t) 0 h n s).sol -
      (Real.exp (-(0 + h * n)) + (0 + h * n) - 1)‖ ≤ C * h ^ 3 := by
  let d : ℕ → ℝ → ℝ := fun i => match i with
    | 0 => fun t => Real.exp (-t) + t - 1
    | 1 => fun t => -Real.exp (-t) + 1
    | 2 => fun t => Real.exp (-t)
    | 3 => fun t => -Real.exp (-t)
    | _ => fun t => Real.exp (-t)
  have he : ∀ t : ℝ, HasDerivAt (fun t => Real.exp (-t)) (-Real.exp (-t)) t := fun t => by
    have := (hasDerivAt_neg t).exp
    simpa using this
  have h0 : d 0 0 = 0 := by simp [d]
  have := rk3_converges (R := fun t u : ℝ => -u + t) (d := d) (a := 0) (b := 1) (L := 1)
    (J := fun _ => -ContinuousLinearMap.id ℝ ℝ) zero_le_one
    (fun t u v => by
      have : -u + t - (-v + t) = -(u - v) := by ring
      rw [this, norm_neg, one_mul])
    ⟨⟨0, fun t _ v => by simp; ring⟩, ⟨1, fun t _ => by simp⟩, ⟨0, fun s _ t _ => by simp⟩⟩
    ⟨fun t _ => by simp only [d]; ring,
     fun i hi t _ => by
      interval_cases i
      · exact (((he t).add (hasDerivAt_id t)).sub_const 1).hasDerivWithinAt
      · exact ((he t).neg.add_const 1).hasDerivWithinAt.congr_deriv (by simp [d])
      · exact (he t).hasDerivWithinAt
      · exact (he t).neg.hasDerivWithinAt.congr_deriv (by simp [d]),
     ⟨3, fun i hi t ht => by
      have h1 : Real.exp (-t) ≤ 1 := Real.exp_le_one_iff.2 (by linarith [ht.1])
      have h2 := Real.exp_pos (-t)
      have := ht.1
      have := ht.2
      interval_cases i <;> simp only [d, Real.norm_eq_abs, abs_le] <;> constructor <;> linarith⟩⟩
  rw [h0] at this
  exact this

example : (update .rk3 (constant (K := ℚ) (LinearMap.id : ℚ →ₗ[ℚ] ℚ)) 0 1 ⟨0, 6, []⟩).sol = 16 := by
  rw [linear_step]
  norm_num [expSeries, Stepper.order, Finset.sum_range_succ, Nat.factorial]

/-- The hypothesis of `strong_stability` for the decay `u' = -u` and the interval `[0,1]`. -/
example (t : ℝ) (n : ℕ) : 0 ≤ (run .rk3 (fun _ u : ℝ => -u) t 1 n ⟨0, 1, []⟩).sol ∧
    (run .rk3 (fun _ u : ℝ => -u) t 1 n ⟨0, 1, []⟩).sol ≤ 1 :=
  strong_stability .rk3 _ (fun u : ℝ => 0 ≤ u ∧ u ≤ 1)
    (fun u v ⟨hu, hu'⟩ ⟨hv, hv'⟩ w h0 h1 => by
      have h2 := mul_nonneg h0 hu
      have h3 := mul_nonneg (sub_nonneg.2 h1) hv
      have h4 := mul_nonneg h0 (sub_nonneg.2 hu')
      have h5 := mul_nonneg (sub_nonneg.2 h1) (sub_nonneg.2 hv')
      simp only [smul_eq_mul]
      exact ⟨by nlinarith, by nlinarith⟩) 1
    (fun t u hu => by simp) t n _ ⟨by norm_num, by norm_num⟩

end MiniCFD.RK
