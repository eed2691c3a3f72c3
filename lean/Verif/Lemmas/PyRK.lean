import Verif.Model.PyRK
import Verif.Lemmas.RK

/-! Lemmas on the Python steppers. -/

namespace MiniCFD.PyRK
open MiniCFD.RK (Sys BigO)
open MiniCFD.Spec.RK

section algebra
variable {K V : Type*} [Field K] [AddCommGroup V] [Module K V]

/-- The fourth order step as a function of the column. -/
def step4 (R : K → V → V) (t dt : K) (u : V) : V :=
  let k1 := R t u
  let k2 := R (t + dt / 2) (u + (dt / 2) • k1)
  let k3 := R (t + dt / 2) (u + (dt / 2) • k2)
  let k4 := R (t + dt) (u + dt • k3)
  u + (dt / 6) • (k1 + (2 : K) • k2 + (2 : K) • k3 + k4)

/-- One step of each order as a function of the column. -/
def stepOf (order : Nat) (R : K → V → V) (t dt : K) (u : V) : V :=
  match order with
  | 1 => RK.step1 R t dt u
  | 2 => RK.step2 R t dt u
  | 3 => RK.step3 R t dt u
  | _ => step4 R t dt u

theorem half_smul (dt : K) (v : V) : (2 : K)⁻¹ • (dt • v) = (dt / 2) • v := by
  rw [smul_smul]; congr 1; rw [div_eq_mul_inv, mul_comm]

theorem rk4_sol (R : K → V → V) (dt t : K) (s : Sys K V) :
    (rk4 id R dt t s).sol = step4 R t dt s.sol := by
  simp only [rk4, store, Sys.setSol, Sys.setTime, Sys.residual, half_smul, id, step4, smul_add]
  abel

theorem rk3_sol (R : K → V → V) (dt t : K) (s : Sys K V) :
    (rk3 id R dt t s).sol = RK.step3 R t dt s.sol := by
  simp only [rk3, euler, uNext, store, Sys.setSol, Sys.setTime, Sys.residual, id, RK.step3, RK.half3,
    RK.step1]
  rw [add_comm (s.sol + dt • R t s.sol + dt • R (t + dt) (s.sol + dt • R t s.sol))]

theorem update_some {order : Nat} {limit : V → V} {R : K → V → V} {dt t : K} {s s' : Sys K V}
    (h : update order limit R dt t s = some s') : 1 ≤ order ∧ order ≤ 4 := by
  unfold update at h
  split at h <;> simp_all

theorem update_defined {order : Nat} (h1 : 1 ≤ order) (h4 : order ≤ 4) (limit : V → V)
    (R : K → V → V) (dt t : K) (s : Sys K V) : ∃ s', update order limit R dt t s = some s' := by
  obtain rfl | rfl | rfl | rfl : order = 1 ∨ order = 2 ∨ order = 3 ∨ order = 4 := by omega
  all_goals exact ⟨_, rfl⟩

theorem update_sol {order : Nat} {R : K → V → V} {dt t : K} {s s' : Sys K V}
    (h : update order id R dt t s = some s') : s'.sol = stepOf order R t dt s.sol := by
  obtain ⟨h1, h4⟩ := update_some h
  obtain rfl | rfl | rfl | rfl : order = 1 ∨ order = 2 ∨ order = 3 ∨ order = 4 := by omega
  · cases h; rfl
  · cases h; rfl
  · cases h; exact rk3_sol R dt t s
  · cases h; exact rk4_sol R dt t s

theorem step4_linear [CharZero K] (A : V →ₗ[K] V) (t dt : K) (u : V) :
    step4 (RK.constant A) t dt u = expSeries 4 dt A u := by
  simp only [step4, expSeries, Finset.sum_range_succ, RK.constant, Finset.sum_range_zero,
    zero_add, Nat.factorial, map_add, map_smul, pow_zero, pow_succ, one_mul, Module.End.mul_apply,
    Module.End.one_apply, Nat.cast_one, Nat.cast_mul, Nat.cast_ofNat]
  match_scalars <;> field_simp <;> ring

end algebra

section order
variable {E : Type*} [NormedAddCommGroup E] [NormedSpace ℝ E] {a b : ℝ}

/-- The Taylor remainder of order five at the end of the step. -/
theorem taylor5 {R : ℝ → E → E} {d : ℕ → ℝ → E} (H : SmoothSolution R a b 4 d) :
    BigO a b 5 (fun t h => d 0 (t + h) - d 0 t - h • d 1 t - (h ^ 2 / 2) • d 2 t -
      (h ^ 3 / 6) • d 3 t - (h ^ 4 / 24) • d 4 t) := by
  obtain ⟨-, -, -, t4⟩ := RK.taylor_remainders H zero_le_one le_rfl
  obtain ⟨C, hC, hb⟩ := t4 1 (by omega)
  have hid : ∀ (t s : ℝ) (S : Set ℝ), HasDerivWithinAt (fun s : ℝ => s - t) 1 S s :=
    fun t s S => (hasDerivWithinAt_id s S).sub_const t
  refine ⟨C / 5, by positivity, fun t h h1 h2 h3 => ?_⟩
  have hs : Set.Icc t (t + h) ⊆ Set.Icc a b := fun s hs => ⟨h1.trans hs.1, hs.2.trans h3⟩
  have := RK.integrate_bound
    (g := fun s => d 0 s - d 0 t - (s - t) • d 1 t - ((s - t) ^ 2 / 2) • d 2 t -
      ((s - t) ^ 3 / 6) • d 3 t - ((s - t) ^ 4 / 24) • d 4 t)
    (g' := fun s => d 1 s - d 1 t - (s - t) • d 2 t - ((s - t) ^ 2 / 2) • d 3 t -
      ((s - t) ^ 3 / 6) • d 4 t) (C := C) (n := 4) (t := t) (h := h) (by simp)
    (fun s hs' => by
      have h4 := ((H.deriv 0 (by omega) s (hs hs')).mono hs).sub_const (d 0 t)
      have h5 := (hid t s (Set.Icc t (t + h))).smul_const (d 1 t)
      have h6 := (((hid t s (Set.Icc t (t + h))).fun_pow 2).div_const 2).smul_const (d 2 t)
      have h7 := (((hid t s (Set.Icc t (t + h))).fun_pow 3).div_const 6).smul_const (d 3 t)
      have h8 := (((hid t s (Set.Icc t (t + h))).fun_pow 4).div_const 24).smul_const (d 4 t)
      refine ((((h4.sub h5).sub h6).sub h7).sub h8).congr_deriv ?_
      simp only [Nat.cast_ofNat, zero_add]
      match_scalars <;> ring)
    (fun s hs' => by
      have := hb t (s - t) h1 (by linarith [hs'.1]) (by linarith [hs'.2])
      simp only [one_mul, add_sub_cancel] at this
      exact this)
    (t + h) ⟨by linarith, le_rfl⟩
  simp only [add_sub_cancel_left] at this
  refine this.trans_eq ?_
  norm_num

/-- Local error of the classical fourth order step. -/
theorem local4 {R : ℝ → E → E} {d : ℕ → ℝ → E} {J : ℝ → E →L[ℝ] E}
    (hJ : Linearisable R a b (d 0) J) (H : SmoothSolution R a b 4 d) :
    BigO a b 5 (fun t h => step4 R t h (d 0 t) - d 0 (t + h)) := by
  obtain ⟨M, hM⟩ := H.bounded
  obtain ⟨Q, hQ⟩ := hJ.quad
  obtain ⟨c, hc⟩ := hJ.bounded
  obtain ⟨l, hl⟩ := hJ.lip
  obtain ⟨-, -, -, t4⟩ := RK.taylor_remainders H zero_le_one le_rfl
  obtain ⟨-, s2, s3, s4⟩ := RK.taylor_remainders H (θ := 1 / 2) (by norm_num) (by norm_num)
  have t5 := taylor5 H
  have dd : ∀ i ≤ 5, BigO a b 0 (fun t _ => d i t) := fun i hi =>
    ⟨|M|, abs_nonneg _, fun t h h1 h2 h3 => by
      simpa using (hM i (by omega) t ⟨h1, by linarith⟩).trans (le_abs_self _)⟩
  have mid : ∀ t h, a ≤ t → 0 ≤ h → t + h ≤ b → t + h / 2 ∈ Set.Icc a b :=
    fun t h h1 h2 h3 => ⟨by linarith, by linarith⟩
  have fin : ∀ t h, a ≤ t → 0 ≤ h → t + h ≤ b → t + h ∈ Set.Icc a b :=
    fun t h h1 h2 h3 => ⟨by linarith, by linarith⟩
  have half : ∀ t h : ℝ, t + 1 / 2 * h = t + h / 2 := fun t h => by ring
  -- stages
  let k2 : ℝ → ℝ → E := fun t h => R (t + h / 2) (d 0 t + (h / 2) • d 1 t)
  let k3 : ℝ → ℝ → E := fun t h => R (t + h / 2) (d 0 t + (h / 2) • k2 t h)
  let k4 : ℝ → ℝ → E := fun t h => R (t + h) (d 0 t + h • k3 t h)
  let e1 : ℝ → ℝ → E := fun t h => d 0 t + (h / 2) • d 1 t - d 0 (t + h / 2)
  let e2 : ℝ → ℝ → E := fun t h => d 0 t + (h / 2) • k2 t h - d 0 (t + h / 2)
  let e3 : ℝ → ℝ → E := fun t h => d 0 t + h • k3 t h - d 0 (t + h)
  let Jm : ℝ → ℝ → E →L[ℝ] E := fun t h => J (t + h / 2)
  have hJm : ∀ t h, a ≤ t → 0 ≤ h → t + h ≤ b → ‖Jm t h‖ ≤ c := fun t h h1 h2 h3 =>
    hc _ (mid t h h1 h2 h3)
  have E1 : BigO a b 4 (fun t h => e1 t h + (h ^ 2 / 8) • d 2 t + (h ^ 3 / 48) • d 3 t) :=
    ((s4 0 (by omega)).const_smul (-1)).congr fun t h h3 h4 h5 => by
      simp only [e1, half, zero_add]; module
  have e1b : BigO a b 2 e1 :=
    ((s2 0 (by omega)).const_smul (-1)).congr fun t h h3 h4 h5 => by
      simp only [e1, half, zero_add]; module
  have r2 : BigO a b 4 (fun t h => k2 t h - d 1 (t + h / 2) - Jm t h (e1 t h)) :=
    BigO.of_le (n := 2) (m := 2) e1b (c := Q) (fun t h h1 h2 h3 => by
      rw [H.ode _ (mid t h h1 h2 h3)]
      exact hQ _ (mid t h h1 h2 h3) _)
  have J1 : BigO a b 2 (fun t h => Jm t h (e1 t h)) := e1b.clm hJm
  have E2 : BigO a b 4 (fun t h => e2 t h - (1 / 2 * h) • Jm t h (e1 t h) - (h ^ 2 / 8) • d 2 t -
      (h ^ 3 / 24) • d 3 t) := by
    refine (((r2.weaken.mul_h (1 / 2)).add ((s3 1 (by omega)).mul_h (1 / 2))).sub
      (s4 0 (by omega))).congr fun t h h3 h4 h5 => ?_
    simp only [e2, half, zero_add]
    module
  have e2b : BigO a b 2 e2 :=
    ((E2.weaken.weaken.add (J1.mul_h (1 / 2)).weaken).add
      ((((dd 2 (by omega)).mul_h 1).mul_h (1 / 8)).add
        ((((dd 3 (by omega)).mul_h 1).mul_h 1).mul_h (1 / 24)).weaken)).congr
      fun t h h3 h4 h5 => by module
  have r3 : BigO a b 4 (fun t h => k3 t h - d 1 (t + h / 2) - Jm t h (e2 t h)) :=
    BigO.of_le (n := 2) (m := 2) e2b (c := Q) (fun t h h1 h2 h3 => by
      rw [H.ode _ (mid t h h1 h2 h3)]
      exact hQ _ (mid t h h1 h2 h3) _)
  have J2 : BigO a b 2 (fun t h => Jm t h (e2 t h)) := e2b.clm hJm
  have E3 : BigO a b 4 (fun t h => e3 t h - (1 * h) • Jm t h (e2 t h) + (h ^ 3 / 24) • d 3 t) := by
    refine (((r3.weaken.mul_h 1).add ((s3 1 (by omega)).mul_h 1)).sub
      (t4 0 (by omega))).congr fun t h h3 h4 h5 => ?_
    simp only [e3, half, zero_add, one_mul]
    module
  have e3b : BigO a b 3 e3 :=
    ((E3.weaken.add (J2.mul_h 1)).sub
      ((((dd 3 (by omega)).mul_h 1).mul_h 1).mul_h (1 / 24))).congr
      fun t h h3 h4 h5 => by module
  have r4 : BigO a b 4 (fun t h => k4 t h - d 1 (t + h) - J (t + h) (e3 t h)) :=
    BigO.of_le (n := 2) (m := 2) e3b.weaken (c := Q) (fun t h h1 h2 h3 => by
      rw [H.ode _ (fin t h h1 h2 h3)]
      exact hQ _ (fin t h h1 h2 h3) _)
  -- the linearisation at the end against the one in the middle
  have z : BigO a b 4 (fun t h => (J (t + h) - Jm t h) (e3 t h)) := by
    have := BigO.of_le (m := 1) (F := fun t h => (J (t + h) - Jm t h) (e3 t h)) (e3b.mul_h 1)
      (c := |l|) (fun t h h2 h3 h4 => by
        have h5 := hl (t + h) (fin t h h2 h3 h4) (t + h / 2) (mid t h h2 h3 h4)
        rw [show t + h - (t + h / 2) = h / 2 by ring, abs_of_nonneg (by linarith)] at h5
        have h6 : ‖J (t + h) - J (t + h / 2)‖ ≤ |l| * h := by
          refine h5.trans ?_
          have := mul_le_mul_of_nonneg_right (le_abs_self l) (show 0 ≤ h / 2 by linarith)
          have := mul_nonneg (abs_nonneg l) (show 0 ≤ h / 2 by linarith)
          linarith
        rw [pow_one, norm_smul, Real.norm_eq_abs, one_mul, abs_of_nonneg h3]
        calc _ ≤ _ := (J (t + h) - Jm t h).le_opNorm _
          _ ≤ |l| * h * ‖e3 t h‖ := mul_le_mul_of_nonneg_right h6 (norm_nonneg _)
          _ = _ := by ring)
    rwa [mul_one] at this
  -- the two middle errors nearly cancel
  have e12 : BigO a b 3 (fun t h => e1 t h + e2 t h) :=
    ((E1.weaken.add E2.weaken).add ((J1.mul_h (1 / 2)).add
      ((((dd 3 (by omega)).mul_h 1).mul_h 1).mul_h (1 / 48)))).congr
      fun t h h3 h4 h5 => by module
  have JJ : BigO a b 4 (fun t h => (1 * h) • Jm t h (e1 t h + e2 t h)) := (e12.clm hJm).mul_h 1
  have S1 : BigO a b 4 (fun t h => (2 : ℝ) • e1 t h + (2 : ℝ) • e2 t h + e3 t h) := by
    refine (((E1.const_smul 2).add (E2.const_smul 2)).add (E3.add JJ)).congr
      fun t h h3 h4 h5 => ?_
    rw [map_add]
    module
  have S2 : BigO a b 4 (fun t h => Jm t h ((2 : ℝ) • e1 t h + (2 : ℝ) • e2 t h + e3 t h)) :=
    S1.clm hJm
  -- Simpson's rule
  have S := (((t4 1 (by omega)).add ((s4 1 (by omega)).const_smul 4)).mul_h (1 / 6)).sub t5
  have W := (((r2.const_smul 2).add (r3.const_smul 2)).add ((r4.add z).add S2)).mul_h (1 / 6)
  refine (S.add W).congr fun t h h3 h4 h5 => ?_
  have hs : step4 R t h (d 0 t) = d 0 t + (h / 6) • (d 1 t + (2 : ℝ) • k2 t h + (2 : ℝ) • k3 t h +
      k4 t h) := by
    simp only [step4, ← H.ode t ⟨h3, by linarith⟩, k2, k3, k4]
  rw [hs]
  simp only [one_mul, half, map_add, map_smul, ContinuousLinearMap.sub_apply]
  module

/-- The fourth order step is Lipschitz with constant `exp (h L)`. -/
theorem step4_lip {R : ℝ → E → E} {L : ℝ} (hL : Lip R L) (h0 : 0 ≤ L) {t h : ℝ}
    (hh : 0 ≤ h) (u v : E) :
    ‖step4 R t h u - step4 R t h v‖ ≤ Real.exp (h * L) * ‖u - v‖ := by
  have x0 : 0 ≤ h * L := mul_nonneg hh h0
  have n0 := norm_nonneg (u - v)
  have st : ∀ (θ : ℝ) (_ : 0 ≤ θ) (p q : E) (K : ℝ), ‖p - q‖ ≤ K →
      ‖(u + θ • p) - (v + θ • q)‖ ≤ ‖u - v‖ + θ * K := by
    intro θ hθ p q K hk
    have e : (u + θ • p) - (v + θ • q) = (u - v) + θ • (p - q) := by module
    rw [e]
    refine (norm_add_le _ _).trans ?_
    rw [norm_smul, Real.norm_eq_abs, abs_of_nonneg hθ]
    have := mul_le_mul_of_nonneg_left hk hθ
    linarith
  set δ := ‖u - v‖ with hδ
  set x := h * L with hx
  have b1 := hL t u v
  have b2 := (hL (t + h / 2) _ _).trans (mul_le_mul_of_nonneg_left
    (st (h / 2) (by linarith) _ _ _ b1) h0)
  have b3 := (hL (t + h / 2) _ _).trans (mul_le_mul_of_nonneg_left
    (st (h / 2) (by linarith) _ _ _ b2) h0)
  have b4 := (hL (t + h) _ _).trans (mul_le_mul_of_nonneg_left
    (st h hh _ _ _ b3) h0)
  have key : ‖step4 R t h u - step4 R t h v‖ ≤
      (∑ i ∈ Finset.range 5, x ^ i / (i.factorial : ℝ)) * δ := by
    simp only [step4]
    refine (st (h / 6) (by linarith) _ _ (L * δ + 2 * (L * (δ + h / 2 * (L * δ))) +
      2 * (L * (δ + h / 2 * (L * (δ + h / 2 * (L * δ))))) +
      L * (δ + h * (L * (δ + h / 2 * (L * (δ + h / 2 * (L * δ))))))) ?_).trans_eq ?_
    · set p1 := R t u
      set q1 := R t v
      set p2 := R (t + h / 2) (u + (h / 2) • p1)
      set q2 := R (t + h / 2) (v + (h / 2) • q1)
      set p3 := R (t + h / 2) (u + (h / 2) • p2)
      set q3 := R (t + h / 2) (v + (h / 2) • q2)
      set p4 := R (t + h) (u + h • p3)
      set q4 := R (t + h) (v + h • q3)
      have e : p1 + (2 : ℝ) • p2 + (2 : ℝ) • p3 + p4 - (q1 + (2 : ℝ) • q2 + (2 : ℝ) • q3 + q4) =
          (p1 - q1) + (2 : ℝ) • (p2 - q2) + (2 : ℝ) • (p3 - q3) + (p4 - q4) := by module
      rw [e]
      have n1 := norm_add_le ((p1 - q1) + (2 : ℝ) • (p2 - q2) + (2 : ℝ) • (p3 - q3)) (p4 - q4)
      have n2 := norm_add_le ((p1 - q1) + (2 : ℝ) • (p2 - q2)) ((2 : ℝ) • (p3 - q3))
      have n3 := norm_add_le (p1 - q1) ((2 : ℝ) • (p2 - q2))
      rw [norm_smul, Real.norm_eq_abs, abs_of_pos (by norm_num : (0 : ℝ) < 2)] at n2 n3
      linarith
    · simp only [Finset.sum_range_succ, Finset.sum_range_zero, Nat.factorial, hx]
      push_cast
      ring
  exact key.trans (mul_le_mul_of_nonneg_right (Real.sum_le_exp_of_nonneg x0 5) n0)

/-- Steps of all orders are Lipschitz with the same constant. -/
theorem stepOf_lip (order : Nat) {R : ℝ → E → E} {L : ℝ} (hL : Lip R L) (h0 : 0 ≤ L) {t h : ℝ}
    (hh : 0 ≤ h) (u v : E) :
    ‖stepOf order R t h u - stepOf order R t h v‖ ≤ Real.exp (h * L) * ‖u - v‖ := by
  unfold stepOf
  split
  · exact RK.step_lip .rk1 hL h0 hh u v
  · exact RK.step_lip .rk2 hL h0 hh u v
  · exact RK.step_lip .rk3 hL h0 hh u v
  · exact step4_lip hL h0 hh u v

/-- From local to global error, for steps of any sizes up to `hmax`. -/
theorem march_error (order : Nat) {R : ℝ → E → E} {y : ℝ → E} {L : ℝ} (hL : Lip R L)
    (h0 : 0 ≤ L) {p : ℕ} {C : ℝ} (hC : 0 ≤ C)
    (hloc : ∀ t h, a ≤ t → 0 ≤ h → t + h ≤ b →
      ‖stepOf order R t h (y t) - y (t + h)‖ ≤ C * h ^ (p + 1))
    (hmax : ℝ) (dts : List ℝ) : (∀ h ∈ dts, 0 ≤ h ∧ h ≤ hmax) → ∀ (t : ℝ) (s s' : Sys ℝ E),
      a ≤ t → t + dts.sum ≤ b → march order id R dts t s = some s' →
      ‖s'.sol - y (t + dts.sum)‖ ≤
        Real.exp (dts.sum * L) * (‖s.sol - y t‖ + dts.sum * (C * hmax ^ p)) := by
  induction dts with
  | nil =>
    intro _ t s s' _ _ h
    cases h
    simp
  | cons h dts ih =>
    intro hd t s s' ha hb hm
    have hd0 : 0 ≤ dts.sum := List.sum_nonneg fun x hx => (hd x (List.mem_cons_of_mem _ hx)).1
    obtain ⟨hh, hh'⟩ := hd h (by simp)
    rw [List.sum_cons] at hb ⊢
    simp only [march, Option.bind_eq_some_iff] at hm
    obtain ⟨s1, hs1, hm⟩ := hm
    have h2 := ih (fun x hx => hd x (List.mem_cons_of_mem _ hx)) (t + h) s1 s' (by linarith)
      (by linarith) hm
    have h3 : ‖s1.sol - y (t + h)‖ ≤ Real.exp (h * L) * ‖s.sol - y t‖ + C * h ^ (p + 1) := by
      rw [update_sol hs1]
      have h4 := stepOf_lip order hL h0 (t := t) hh s.sol (y t)
      have h5 := hloc t h ha hh (by linarith)
      have e : stepOf order R t h s.sol - y (t + h) =
          (stepOf order R t h s.sol - stepOf order R t h (y t)) +
          (stepOf order R t h (y t) - y (t + h)) := by abel
      rw [e]
      exact (norm_add_le _ _).trans (add_le_add h4 h5)
    have hp : h ^ p ≤ hmax ^ p := pow_le_pow_left₀ hh hh' p
    have hp0 : 0 ≤ hmax ^ p := pow_nonneg (hh.trans hh') p
    have h6 : C * h ^ (p + 1) ≤ Real.exp (h * L) * (h * (C * hmax ^ p)) := by
      have e1 : 1 ≤ Real.exp (h * L) := Real.one_le_exp (mul_nonneg hh h0)
      have e2 : C * h ^ (p + 1) ≤ h * (C * hmax ^ p) := by
        rw [pow_succ]
        calc C * (h ^ p * h) = (C * h) * h ^ p := by ring
          _ ≤ (C * h) * hmax ^ p := mul_le_mul_of_nonneg_left hp (mul_nonneg hC hh)
          _ = _ := by ring
      have e3 : 0 ≤ h * (C * hmax ^ p) := by positivity
      nlinarith
    have e4 : t + (h + dts.sum) = t + h + dts.sum := by ring
    rw [e4]
    refine h2.trans ?_
    have e5 : Real.exp ((h + dts.sum) * L) = Real.exp (dts.sum * L) * Real.exp (h * L) := by
      rw [← Real.exp_add]; congr 1; ring
    rw [e5, mul_assoc]
    refine mul_le_mul_of_nonneg_left ?_ (Real.exp_pos _).le
    have e6 : dts.sum * (C * hmax ^ p) ≤ Real.exp (h * L) * (dts.sum * (C * hmax ^ p)) := by
      have e1 : 1 ≤ Real.exp (h * L) := Real.one_le_exp (mul_nonneg hh h0)
      have : 0 ≤ dts.sum * (C * hmax ^ p) := by positivity
      nlinarith
    nlinarith

end order
end MiniCFD.PyRK
