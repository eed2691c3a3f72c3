import Verif.Lemmas.PyRK
import Verif.Props.RK
import Mathlib.LinearAlgebra.Pi
import Mathlib.Data.Fin.VecNotation

/-! C82: the Python Runge-Kutta steppers. -/

namespace MiniCFD.PyRK
open MiniCFD.RK (Sys)
open MiniCFD.Spec.RK

section algebra
variable {K V : Type*} [Field K] [AddCommGroup V] [Module K V]

/-- A step is carried out exactly for the orders one to four. -/
theorem defined_iff (order : Nat) (limit : V → V) (R : K → V → V) (dt t : K) (s : Sys K V) :
    (∃ s', update order limit R dt t s = some s') ↔ 1 ≤ order ∧ order ≤ 4 :=
  ⟨fun ⟨_, h⟩ => update_some h, fun ⟨h1, h4⟩ => update_defined h1 h4 limit R dt t s⟩

/-- The Python and the C++ steppers of the orders one to three give the same column. -/
theorem agrees (k : RK.Stepper) (R : K → V → V) (dt t : K) (s : Sys K V) :
    ∃ s', update k.order id R dt t s = some s' ∧ s'.sol = (RK.update k R t dt s).sol := by
  cases k
  · exact ⟨_, rfl, rfl⟩
  · exact ⟨_, rfl, rfl⟩
  · exact ⟨_, rfl, rk3_sol R dt t s⟩

/-- After a step the clock shows the end of the step, for every order. -/
theorem clock {order : Nat} {limit : V → V} {R : K → V → V} {dt t : K} {s s' : Sys K V}
    (h : update order limit R dt t s = some s') : s'.time = t + dt := by
  obtain ⟨h1, h4⟩ := update_some h
  obtain rfl | rfl | rfl | rfl : order = 1 ∨ order = 2 ∨ order = 3 ∨ order = 4 := by omega
  all_goals cases h; rfl

/-- The residual is evaluated once per stage at the times of the tableau; the first evaluation sees
the current column. -/
theorem stages {order : Nat} {limit : V → V} {R : K → V → V} {dt t : K} {s s' : Sys K V}
    (h : update order limit R dt t s = some s') :
    ∃ us : List (K × V), s'.evals = s.evals ++ us ∧ us.head? = some (t, s.sol) ∧
      us.map Prod.fst =
        if order = 1 then [t]
        else if order = 2 then [t, t + dt]
        else if order = 3 then [t, t + dt, t + dt / 2]
        else [t, t + dt / 2, t + dt / 2, t + dt] := by
  obtain ⟨h1, h4⟩ := update_some h
  obtain rfl | rfl | rfl | rfl : order = 1 ∨ order = 2 ∨ order = 3 ∨ order = 4 := by omega
  · cases h
    exact ⟨_, rfl, rfl, rfl⟩
  · cases h
    exact ⟨[(t, s.sol), (t + dt, limit (s.sol + dt • R t s.sol))], by
      simp [rk2, euler, uNext, store, Sys.residual, Sys.setTime, Sys.setSol], rfl, by simp⟩
  · cases h
    exact ⟨[(t, s.sol), (t + dt, limit (s.sol + dt • R t s.sol)), (t + dt / 2, _)], by
      simp only [rk3, euler, uNext, store, Sys.residual, Sys.setTime, Sys.setSol,
        List.append_assoc, List.cons_append, List.nil_append]
      rfl, rfl, by simp⟩
  · cases h
    exact ⟨[(t, s.sol), (t + dt / 2, limit (s.sol + (2 : K)⁻¹ • (dt • R t s.sol))),
        (t + dt / 2, _), (t + dt, _)], by
      simp only [rk4, store, Sys.residual, Sys.setTime, Sys.setSol,
        List.append_assoc, List.cons_append, List.nil_append]
      rfl, rfl, by simp⟩

/-- On `u' = A u` a step applies the exponential series cut after the advertised order. -/
theorem linear_step [CharZero K] {order : Nat} (A : V →ₗ[K] V) {dt t : K} {s s' : Sys K V}
    (h : update order id (RK.constant A) dt t s = some s') : s'.sol = expSeries order dt A s.sol := by
  rw [update_sol h]
  obtain ⟨h1, h4⟩ := update_some h
  obtain rfl | rfl | rfl | rfl : order = 1 ∨ order = 2 ∨ order = 3 ∨ order = 4 := by omega
  · exact RK.step1_linear A t dt _
  · exact RK.step2_linear A t dt _
  · exact RK.step3_linear A t dt _
  · exact step4_linear A t dt _

/-- A quantity that no residual produces and the limiter keeps is kept by every number of steps. -/
theorem conserves [CharZero K] {order : Nat} {limit : V → V} {R : K → V → V} (φ : V →ₗ[K] K)
    (hR : ∀ t u, φ (R t u) = 0) (hl : ∀ u, φ (limit u) = φ u) (dts : List K) :
    ∀ (t : K) (s s' : Sys K V), march order limit R dts t s = some s' → φ s'.sol = φ s.sol := by
  have one : ∀ dt t (s s' : Sys K V), update order limit R dt t s = some s' →
      φ s'.sol = φ s.sol := by
    intro dt t s s' h
    obtain ⟨h1, h4⟩ := update_some h
    obtain rfl | rfl | rfl | rfl : order = 1 ∨ order = 2 ∨ order = 3 ∨ order = 4 := by omega
    · cases h
      simp [rk1, euler, uNext, store, Sys.residual, Sys.setTime, Sys.setSol, hR, hl]
    · cases h
      simp only [rk2, euler, uNext, store, Sys.residual, Sys.setTime, Sys.setSol, hR, hl,
        map_add, map_smul, smul_eq_mul, mul_zero, add_zero]
      field_simp
      ring
    · cases h
      simp only [rk3, euler, uNext, store, Sys.residual, Sys.setTime, Sys.setSol, hR, hl,
        map_add, map_smul, smul_eq_mul, mul_zero, add_zero]
      field_simp
      ring
    · cases h
      simp only [rk4, store, Sys.residual, Sys.setTime, Sys.setSol, hR, hl,
        map_add, map_smul, smul_eq_mul, mul_zero, add_zero]
  induction dts with
  | nil => intro t s s' h; cases h; rfl
  | cons dt dts ih =>
    intro t s s' h
    simp only [march, Option.bind_eq_some_iff] at h
    obtain ⟨s1, hs1, h⟩ := h
    rw [ih _ s1 s' h, one dt t s s1 hs1]

/-- A steady state that the limiter leaves alone is kept by every number of steps. -/
theorem steady [CharZero K] {order : Nat} {limit : V → V} {R : K → V → V} {u : V}
    (hR : ∀ t, R t u = 0) (hl : limit u = u) (dts : List K) :
    ∀ (t : K) (s s' : Sys K V), s.sol = u → march order limit R dts t s = some s' → s'.sol = u := by
  have a2 : (2 : K)⁻¹ • (u + u) = u := by match_scalars; field_simp; norm_num
  have a4 : (4 : K)⁻¹ • (u + (3 : K) • u) = u := by match_scalars; field_simp; norm_num
  have a3 : (3 : K)⁻¹ • ((2 : K) • u + u) = u := by match_scalars; field_simp; norm_num
  have one : ∀ dt t (s s' : Sys K V), s.sol = u → update order limit R dt t s = some s' →
      s'.sol = u := by
    intro dt t s s' hs h
    obtain ⟨h1, h4⟩ := update_some h
    obtain rfl | rfl | rfl | rfl : order = 1 ∨ order = 2 ∨ order = 3 ∨ order = 4 := by omega
    · cases h
      simp [rk1, euler, uNext, store, Sys.residual, Sys.setTime, Sys.setSol, hs, hR, hl]
    · cases h
      simp only [rk2, euler, uNext, store, Sys.residual, Sys.setTime, Sys.setSol, hs, hR, hl,
        smul_zero, add_zero, a2]
    · cases h
      simp only [rk3, euler, uNext, store, Sys.residual, Sys.setTime, Sys.setSol, hs, hR, hl,
        smul_zero, add_zero, a4, a3]
    · cases h
      simp only [rk4, store, Sys.residual, Sys.setTime, Sys.setSol, hs, hR, hl, smul_zero, add_zero]
  induction dts with
  | nil => intro t s s' hs h; cases h; exact hs
  | cons dt dts ih =>
    intro t s s' hs h
    simp only [march, Option.bind_eq_some_iff] at h
    obtain ⟨s1, hs1, h⟩ := h
    exact ih _ s1 s' (one dt t s s1 hs hs1) h

end algebra

/-- On a quadrature problem `u' = P'(t)` a step is exact for every polynomial `P` whose degree does
not exceed the advertised order. -/
theorem quadrature {order : Nat} (P : Polynomial ℝ) (hP : P.natDegree ≤ order) {dt t : ℝ}
    {s s' : Sys ℝ ℝ} (h : update order id (fun τ _ => P.derivative.eval τ) dt t s = some s') :
    s'.sol = s.sol + (P.eval (t + dt) - P.eval t) := by
  obtain ⟨h1, h4⟩ := update_some h
  obtain rfl | rfl | rfl | rfl : order = 1 ∨ order = 2 ∨ order = 3 ∨ order = 4 := by omega
  · have := RK.quadrature .rk1 P hP t dt s
    rw [update_sol h]; rwa [RK.update_sol] at this
  · have := RK.quadrature .rk2 P hP t dt s
    rw [update_sol h]; rwa [RK.update_sol] at this
  · have := RK.quadrature .rk3 P hP t dt s
    rw [update_sol h]; rwa [RK.update_sol] at this
  · have hs : P = ∑ i ∈ Finset.range 5, Polynomial.monomial i (P.coeff i) :=
      P.as_sum_range' 5 (by omega)
    have e : ∀ τ : ℝ, P.eval τ = P.coeff 0 + P.coeff 1 * τ + P.coeff 2 * τ ^ 2 +
        P.coeff 3 * τ ^ 3 + P.coeff 4 * τ ^ 4 := by
      intro τ
      conv_lhs => rw [hs]
      simp [Finset.sum_range_succ, Polynomial.eval_finset_sum, Polynomial.eval_monomial]
    have e' : ∀ τ : ℝ, P.derivative.eval τ =
        P.coeff 1 + 2 * P.coeff 2 * τ + 3 * P.coeff 3 * τ ^ 2 + 4 * P.coeff 4 * τ ^ 3 := by
      intro τ
      conv_lhs => rw [hs]
      simp [Finset.sum_range_succ, Polynomial.derivative_monomial, Polynomial.eval_monomial]
      ring
    rw [update_sol h, e, e]
    simp only [stepOf, step4, e', smul_eq_mul]
    ring

section order
variable {E : Type*} [NormedAddCommGroup E] [NormedSpace ℝ E] {a b : ℝ}

/-- Convergence with the advertised order on every smooth, nonlinear, time dependent problem: with
any sequence of steps of sizes up to `hmax` inside `[a,b]` the error at the end is at most a constant
times `hmax ^ order`.  The constant depends on the problem only. -/
theorem converges {order : Nat} (ho : 1 ≤ order ∧ order ≤ 4) {R : ℝ → E → E} {d : ℕ → ℝ → E}
    {L : ℝ} (h0 : 0 ≤ L) (hL : Lip R L) {J : ℝ → E →L[ℝ] E} (hJ : Linearisable R a b (d 0) J)
    (H : SmoothSolution R a b order d) :
    ∃ C, ∀ (hmax : ℝ) (dts : List ℝ), 0 ≤ hmax → (∀ h ∈ dts, 0 ≤ h ∧ h ≤ hmax) →
      a + dts.sum ≤ b → ∀ s s' : Sys ℝ E, s.sol = d 0 a → march order id R dts a s = some s' →
      ‖s'.sol - d 0 (a + dts.sum)‖ ≤ C * hmax ^ order := by
  have hloc : ∃ C, 0 ≤ C ∧ ∀ t h, a ≤ t → 0 ≤ h → t + h ≤ b →
      ‖stepOf order R t h (d 0 t) - d 0 (t + h)‖ ≤ C * h ^ (order + 1) := by
    obtain ⟨h1, h4⟩ := ho
    obtain rfl | rfl | rfl | rfl : order = 1 ∨ order = 2 ∨ order = 3 ∨ order = 4 := by omega
    · exact RK.local1 H
    · exact RK.local2 hL H
    · exact RK.local3 hJ H
    · exact local4 hJ H
  obtain ⟨C, hC, hl⟩ := hloc
  refine ⟨Real.exp ((b - a) * L) * ((b - a) * C), fun hmax dts hx hd hb s s' hs hm => ?_⟩
  have h1 := march_error order hL h0 hC hl hmax dts hd a s s' le_rfl hb hm
  rw [hs, sub_self, norm_zero, zero_add] at h1
  have hs0 : 0 ≤ dts.sum := List.sum_nonneg fun x hx => (hd x hx).1
  have hsb : dts.sum ≤ b - a := by linarith
  refine h1.trans ?_
  have e1 : Real.exp (dts.sum * L) ≤ Real.exp ((b - a) * L) :=
    Real.exp_le_exp.2 (mul_le_mul_of_nonneg_right hsb h0)
  have e2 : dts.sum * (C * hmax ^ order) ≤ (b - a) * (C * hmax ^ order) :=
    mul_le_mul_of_nonneg_right hsb (by positivity)
  calc _ ≤ Real.exp ((b - a) * L) * ((b - a) * (C * hmax ^ order)) :=
        mul_le_mul e1 e2 (by positivity) (Real.exp_pos _).le
    _ = _ := by ring

end order

/-- Strong stability of the orders one to three, limiter included: a convex set of columns that
forward Euler steps of the given sizes and the limiter do not leave is not left. -/
theorem strong_stability {V : Type*} [AddCommGroup V] [Module ℝ V] {order : Nat} (ho : order ≤ 3)
    {limit : V → V} {R : ℝ → V → V} (S : V → Prop) (hS : ConvexSet S)
    (hl : ∀ u, S u → S (limit u)) (dts : List ℝ) :
    (∀ dt ∈ dts, ∀ t u, S u → S (u + dt • R t u)) → ∀ (t : ℝ) (s s' : Sys ℝ V), S s.sol →
      march order limit R dts t s = some s' → S s'.sol := by
  have one : ∀ dt, (∀ t u, S u → S (u + dt • R t u)) → ∀ t (s s' : Sys ℝ V), S s.sol →
      update order limit R dt t s = some s' → S s'.sol := by
    intro dt hR t s s' hs h
    obtain ⟨h1, h4⟩ := update_some h
    obtain rfl | rfl | rfl : order = 1 ∨ order = 2 ∨ order = 3 := by omega
    · cases h
      exact hl _ (hR t _ hs)
    · cases h
      simp only [rk2, euler, uNext, store, Sys.residual, Sys.setTime, Sys.setSol]
      refine hl _ ?_
      have := hS _ _ (hR (t + dt) _ (hl _ (hR t _ hs))) hs (1 / 2) (by norm_num) (by norm_num)
      convert this using 1
      match_scalars <;> norm_num
    · cases h
      simp only [rk3, euler, uNext, store, Sys.residual, Sys.setTime, Sys.setSol]
      have h2 := hS _ _ (hR (t + dt) _ (hl _ (hR t _ hs))) hs (1 / 4) (by norm_num) (by norm_num)
      have e2 : (4 : ℝ)⁻¹ • (limit (s.sol + dt • R t s.sol) +
          dt • R (t + dt) (limit (s.sol + dt • R t s.sol)) + (3 : ℝ) • s.sol) =
          (1 / 4 : ℝ) • (limit (s.sol + dt • R t s.sol) +
            dt • R (t + dt) (limit (s.sol + dt • R t s.sol))) + (1 - 1 / 4 : ℝ) • s.sol := by
        match_scalars <;> norm_num
      rw [← e2] at h2
      refine hl _ ?_
      have h3 := hS _ _ (hR (t + dt / 2) _ (hl _ h2)) hs (2 / 3) (by norm_num) (by norm_num)
      convert h3 using 1
      module
  induction dts with
  | nil => intro _ t s s' hs h; cases h; exact hs
  | cons dt dts ih =>
    intro hR t s s' hs h
    simp only [march, Option.bind_eq_some_iff] at h
    obtain ⟨s1, hs1, h⟩ := h
    exact ih (fun x hx => hR x (List.mem_cons_of_mem _ hx)) _ s1 s'
      (one dt (hR dt (by simp)) t s s1 hs hs1) h

/-! Concrete cases. -/

/-- Fourth order convergence for `u' = -u + t` on `[0,1]`, whose solution is `exp (-t) + t - 1`. -/
example : ∃ C, ∀ (hmax : ℝ) (dts : List ℝ), 0 ≤ hmax → (∀ h ∈ dts, 0 ≤ h ∧ h ≤ hmax) →
    0 + dts.sum ≤ 1 → ∀ s s' : Sys ℝ ℝ, s.sol = Real.exp (-0) + 0 - 1 →
    march 4 id (fun t u => -u + t) dts 0 s = some s' →
    ‖s'.sol - (Real.exp (-(0 + dts.sum)) + (0 + dts.sum) - 1)‖ ≤ C * hmax ^ 4 := by
  let d : ℕ → ℝ → ℝ := fun i => match i with
    | 0 => fun t => Real.exp (-t) + t - 1
    | 1 => fun t => -Real.exp (-t) + 1
    | 2 => fun t => Real.exp (-t)
    | 3 => fun t => -Real.exp (-t)
    | 4 => fun t => Real.exp (-t)
    | _ => fun t => -Real.exp (-t)
  have he : ∀ t : ℝ, HasDerivAt (fun t => Real.exp (-t)) (-Real.exp (-t)) t := fun t => by
    have := (hasDerivAt_neg t).exp
    simpa using this
  exact converges (order := 4) (by norm_num) (R := fun t u : ℝ => -u + t) (d := d) (a := 0) (b := 1)
    (L := 1) (J := fun _ => -ContinuousLinearMap.id ℝ ℝ) zero_le_one
    (fun t u v => by
      have : -u + t - (-v + t) = -(u - v) := by ring
      rw [this, norm_neg, one_mul])
    ⟨⟨0, fun t _ v => by simp; ring⟩, ⟨1, fun t _ => by simp⟩, ⟨0, fun s _ t _ => by simp⟩⟩
    ⟨fun t _ => by simp only [d]; ring,
     fun i hi t _ => by
      interval_cases i
      · exact (((he t).add (hasDerivAt_id t)).sub_const 1).hasDerivWithinAt
      · exact ((he t).neg.add_const 1).hasDerivWithinAt.congr_deriv (by simp [d])
      · exact (he t).hasDerivWithinAt
      · exact (he t).neg.hasDerivWithinAt.congr_deriv (by simp [d])
      · exact (he t).hasDerivWithinAt,
     ⟨3, fun i hi t ht => by
      have h1 : Real.exp (-t) ≤ 1 := Real.exp_le_one_iff.2 (by linarith [ht.1])
      have h2 := Real.exp_pos (-t)
      have := ht.1
      have := ht.2
      interval_cases i <;> simp only [d, Real.norm_eq_abs, abs_le] <;> constructor <;> linarith⟩⟩

/-- One step of size one on `u' = u` from `24`. -/
example : ∃ s', update 4 id (RK.constant (K := ℚ) (LinearMap.id : ℚ →ₗ[ℚ] ℚ)) 1 0 ⟨0, 24, []⟩ = some s' ∧
    s'.sol = 65 ∧ s'.time = 1 :=
  ⟨_, rfl, by
    rw [linear_step (order := 4) (LinearMap.id : ℚ →ₗ[ℚ] ℚ) rfl]
    norm_num [expSeries, Finset.sum_range_succ, Nat.factorial], by
    rw [clock (order := 4) rfl]; norm_num⟩

/-- Two cells exchanging mass keep their sum under a limiter that moves mass between them. -/
example (dts : List ℚ) (s s' : Sys ℚ (Fin 2 → ℚ))
    (h : march 4 (fun u => ![(u 0 + u 1) / 2, (u 0 + u 1) / 2])
      (fun t u => ![t * u 0 ^ 2, -(t * u 0 ^ 2)]) dts 0 s = some s') :
    s'.sol 0 + s'.sol 1 = s.sol 0 + s.sol 1 :=
  conserves
    { toFun := fun u => u 0 + u 1
      map_add' := fun u v => by simp only [Pi.add_apply]; ring
      map_smul' := fun c u => by simp only [Pi.smul_apply, smul_eq_mul, RingHom.id_apply]; ring }
    (fun t u => by simp) (fun u => by simp) dts 0 s s' h

/-- A residual under which forward Euler steps of size one stay in `[0,1]`. -/
noncomputable def kick (t u : ℝ) : ℝ :=
  if u < 0 then -100 else if t = 1 / 2 then (if u = 0 then 1 else -u) else 0

/-- The fourth order stepper has no such stability: from zero it is thrown out of the interval. -/
theorem fourth_not_stable :
    (∀ t u : ℝ, 0 ≤ u ∧ u ≤ 1 → 0 ≤ u + (1 : ℝ) • kick t u ∧ u + (1 : ℝ) • kick t u ≤ 1) ∧
    ∃ s', update 4 id kick 1 0 ⟨0, (0 : ℝ), []⟩ = some s' ∧ s'.sol < 0 := by
  refine ⟨fun t u ⟨h0, h1⟩ => ?_, _, rfl, ?_⟩
  · unfold kick
    rw [if_neg (by linarith)]
    split_ifs with h2 h3
    · subst h3; norm_num
    · norm_num
    · simpa using ⟨h0, h1⟩
  · simp only [rk4, store, Sys.setSol, Sys.setTime, Sys.residual, id, kick]
    norm_num

end MiniCFD.PyRK
