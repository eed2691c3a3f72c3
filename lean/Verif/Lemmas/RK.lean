import Verif.Model.RK
import Verif.Spec.RK
import Mathlib.Analysis.Calculus.MeanValue
import Mathlib.Analysis.Calculus.Deriv.Pow
import Mathlib.Analysis.SpecialFunctions.Exp
import Mathlib.Analysis.SpecialFunctions.ExpDeriv
import Mathlib.Tactic.Module
import Mathlib.Tactic.Linarith
import Mathlib.Tactic.Positivity
import Mathlib.Tactic.FieldSimp
import Mathlib.Tactic.Ring

/-! Lemmas on the time steppers. -/

namespace MiniCFD.RK
open MiniCFD.Spec.RK

section algebra
variable {K V : Type*} [Field K] [AddCommGroup V] [Module K V]

/-- The advertised order, i.e. the template argument. -/
def Stepper.order : Stepper → ℕ
  | .rk1 => 1
  | .rk2 => 2
  | .rk3 => 3

/-- One step as a function of the solution column only. -/
def step1 (R : K → V → V) (t dt : K) (u : V) : V := u + dt • R t u
def step2 (R : K → V → V) (t dt : K) (u : V) : V :=
  (2⁻¹ : K) • (step1 R (t + dt) dt (step1 R t dt u) + u)
def half3 (R : K → V → V) (t dt : K) (u : V) : V :=
  (4 : K)⁻¹ • ((3 : K) • u + step1 R (t + dt) dt (step1 R t dt u))
def step3 (R : K → V → V) (t dt : K) (u : V) : V :=
  (3 : K)⁻¹ • ((2 : K) • step1 R (t + dt / 2) dt (half3 R t dt u) + u)

def step : Stepper → (K → V → V) → K → K → V → V
  | .rk1 => step1
  | .rk2 => step2
  | .rk3 => step3

theorem update_sol (k : Stepper) (R : K → V → V) (t dt : K) (s : Sys K V) :
    (update k R t dt s).sol = step k R t dt s.sol := by
  cases k <;> rfl

theorem run_succ_sol (k : Stepper) (R : K → V → V) (t dt : K) (n : ℕ) (s : Sys K V) :
    (run k R t dt (n + 1) s).sol = step k R (t + dt * n) dt (run k R t dt n s).sol :=
  update_sol _ _ _ _ _

variable [CharZero K]

theorem step1_linear (A : V →ₗ[K] V) (t dt : K) (u : V) :
    step1 (constant A) t dt u = expSeries 1 dt A u := by
  simp [step1, expSeries, Finset.sum_range_succ, constant]

theorem step2_linear (A : V →ₗ[K] V) (t dt : K) (u : V) :
    step2 (constant A) t dt u = expSeries 2 dt A u := by
  simp only [step2, step1, expSeries, Finset.sum_range_succ, constant, Finset.sum_range_zero,
    zero_add, Nat.factorial, map_add, map_smul, pow_zero, pow_succ, one_mul, Module.End.mul_apply,
    Module.End.one_apply, Nat.cast_one, Nat.cast_mul, Nat.cast_ofNat]
  match_scalars <;> field_simp <;> ring

theorem step3_linear (A : V →ₗ[K] V) (t dt : K) (u : V) :
    step3 (constant A) t dt u = expSeries 3 dt A u := by
  simp only [step3, half3, step1, expSeries, Finset.sum_range_succ, constant, Finset.sum_range_zero,
    zero_add, Nat.factorial, map_add, map_smul, pow_zero, pow_succ, one_mul, Module.End.mul_apply,
    Module.End.one_apply, Nat.cast_one, Nat.cast_mul, Nat.cast_ofNat]
  match_scalars <;> field_simp <;> ring

/-- The second and third order steps as increments. -/
theorem step2_eq (R : K → V → V) (t dt : K) (u : V) :
    step2 R t dt u = u + (dt / 2) • (R t u + R (t + dt) (u + dt • R t u)) := by
  simp only [step2, step1]
  match_scalars <;> field_simp <;> ring

theorem half3_eq (R : K → V → V) (t dt : K) (u : V) :
    half3 R t dt u = u + (dt / 4) • (R t u + R (t + dt) (u + dt • R t u)) := by
  simp only [half3, step1]
  match_scalars <;> field_simp <;> ring

theorem step3_eq (R : K → V → V) (t dt : K) (u : V) :
    step3 R t dt u = u + (dt / 6) • (R t u + R (t + dt) (u + dt • R t u) +
      (4 : K) • R (t + dt / 2) (half3 R t dt u)) := by
  rw [step3, step1]
  generalize hr : R (t + dt / 2) (half3 R t dt u) = r
  rw [half3_eq]
  match_scalars <;> field_simp <;> ring

end algebra

section order
variable {E : Type*} [NormedAddCommGroup E] [NormedSpace ℝ E]

/-- If the derivative of `g` is at most `C s^n` then `g` itself is at most `C s^(n+1)`. -/
theorem integrate_bound {g g' : ℝ → E} {t h C : ℝ} {n : ℕ} (h0 : g t = 0)
    (hd : ∀ s ∈ Set.Icc t (t + h), HasDerivWithinAt g (g' s) (Set.Icc t (t + h)) s)
    (hb : ∀ s ∈ Set.Icc t (t + h), ‖g' s‖ ≤ C * (s - t) ^ n) :
    ∀ s ∈ Set.Icc t (t + h), ‖g s‖ ≤ C / (n + 1) * (s - t) ^ (n + 1) := by
  have hB : ∀ x, HasDerivAt (fun s => C / ((n : ℝ) + 1) * (s - t) ^ (n + 1)) (C * (x - t) ^ n) x := by
    intro x
    have h1 : HasDerivAt (fun s : ℝ => s - t) 1 x := (hasDerivAt_id x).sub_const t
    have h2 := (h1.fun_pow (n + 1)).const_mul (C / ((n : ℝ) + 1))
    refine h2.congr_deriv ?_
    have : (n : ℝ) + 1 ≠ 0 := by positivity
    push_cast
    field_simp
  refine image_norm_le_of_norm_deriv_right_le_deriv_boundary (f := g) (f' := g')
    (fun x hx => (hd x hx).continuousWithinAt) (fun x hx => ?_) (by simp [h0]) hB
    (fun x hx => hb x ⟨hx.1, hx.2.le⟩)
  exact (hd x ⟨hx.1, hx.2.le⟩).mono_of_mem_nhdsWithin
    (Icc_mem_nhdsGE_of_mem hx)

/-- `F t h` is of order `h^n`, uniformly in `t`, for steps that stay in `[a,b]`. -/
def BigO (a b : ℝ) (n : ℕ) (F : ℝ → ℝ → E) : Prop :=
  ∃ C, 0 ≤ C ∧ ∀ t h, a ≤ t → 0 ≤ h → t + h ≤ b → ‖F t h‖ ≤ C * h ^ n

variable {a b : ℝ}

theorem BigO.add {n : ℕ} {F G : ℝ → ℝ → E} (hF : BigO a b n F) (hG : BigO a b n G) :
    BigO a b n (fun t h => F t h + G t h) := by
  obtain ⟨C, hC, hF⟩ := hF
  obtain ⟨D, hD, hG⟩ := hG
  refine ⟨C + D, by linarith, fun t h h1 h2 h3 => ?_⟩
  calc _ ≤ _ := norm_add_le _ _
    _ ≤ C * h ^ n + D * h ^ n := add_le_add (hF t h h1 h2 h3) (hG t h h1 h2 h3)
    _ = _ := by ring

theorem BigO.const_smul {n : ℕ} {F : ℝ → ℝ → E} (hF : BigO a b n F) (c : ℝ) :
    BigO a b n (fun t h => c • F t h) := by
  obtain ⟨C, hC, hF⟩ := hF
  refine ⟨|c| * C, by positivity, fun t h h1 h2 h3 => ?_⟩
  rw [norm_smul, Real.norm_eq_abs, mul_assoc]
  exact mul_le_mul_of_nonneg_left (hF t h h1 h2 h3) (abs_nonneg _)

theorem BigO.sub {n : ℕ} {F G : ℝ → ℝ → E} (hF : BigO a b n F) (hG : BigO a b n G) :
    BigO a b n (fun t h => F t h - G t h) := by
  have := hF.add (hG.const_smul (-1))
  simpa [sub_eq_add_neg] using this

theorem BigO.mul_h {n : ℕ} {F : ℝ → ℝ → E} (hF : BigO a b n F) (c : ℝ) :
    BigO a b (n + 1) (fun t h => (c * h) • F t h) := by
  obtain ⟨C, hC, hF⟩ := hF.const_smul c
  refine ⟨C, hC, fun t h h1 h2 h3 => ?_⟩
  have e : (c * h) • F t h = h • (c • F t h) := by rw [smul_smul, mul_comm]
  change ‖(c * h) • F t h‖ ≤ _
  rw [e, norm_smul, Real.norm_eq_abs, abs_of_nonneg h2, pow_succ]
  have := mul_le_mul_of_nonneg_left (hF t h h1 h2 h3) h2
  linarith

theorem BigO.weaken {n : ℕ} {F : ℝ → ℝ → E} (hF : BigO a b (n + 1) F) : BigO a b n F := by
  obtain ⟨C, hC, hF⟩ := hF
  refine ⟨C * |b - a|, by positivity, fun t h h1 h2 h3 => (hF t h h1 h2 h3).trans ?_⟩
  rw [pow_succ]
  have : h ≤ |b - a| := le_trans (by linarith) (le_abs_self _)
  have h5 : 0 ≤ C * h ^ n := by positivity
  calc C * (h ^ n * h) = C * h ^ n * h := by ring
    _ ≤ C * h ^ n * |b - a| := mul_le_mul_of_nonneg_left this h5
    _ = _ := by ring

theorem BigO.congr {n : ℕ} {F G : ℝ → ℝ → E} (hF : BigO a b n F)
    (h : ∀ t h, a ≤ t → 0 ≤ h → t + h ≤ b → G t h = F t h) : BigO a b n G := by
  obtain ⟨C, hC, hF⟩ := hF
  exact ⟨C, hC, fun t s h1 h2 h3 => by rw [h t s h1 h2 h3]; exact hF t s h1 h2 h3⟩

/-- Domination by another quantity of the right order. -/
theorem BigO.of_le {n m : ℕ} {F : ℝ → ℝ → E} {E' : Type*} [NormedAddCommGroup E']
    [NormedSpace ℝ E'] {G : ℝ → ℝ → E'} (hG : BigO a b n G) {c : ℝ}
    (h : ∀ t h, a ≤ t → 0 ≤ h → t + h ≤ b → ‖F t h‖ ≤ c * ‖G t h‖ ^ m) : BigO a b (n * m) F := by
  obtain ⟨C, hC, hG⟩ := hG
  refine ⟨|c| * C ^ m, by positivity, fun t s h1 h2 h3 => (h t s h1 h2 h3).trans ?_⟩
  have h4 : ‖G t s‖ ^ m ≤ (C * s ^ n) ^ m := pow_le_pow_left₀ (norm_nonneg _) (hG t s h1 h2 h3) _
  calc c * ‖G t s‖ ^ m ≤ |c| * ‖G t s‖ ^ m :=
        mul_le_mul_of_nonneg_right (le_abs_self _) (by positivity)
    _ ≤ |c| * (C * s ^ n) ^ m := mul_le_mul_of_nonneg_left h4 (abs_nonneg _)
    _ = _ := by rw [mul_pow, pow_mul]; ring

/-- Taylor remainders of the solution and its derivatives at `t + θ h`. -/
theorem taylor_remainders {R : ℝ → E → E} {p : ℕ} {d : ℕ → ℝ → E}
    (H : SmoothSolution R a b p d) {θ : ℝ} (h0 : 0 ≤ θ) (h1 : θ ≤ 1) :
    (∀ i ≤ p, BigO a b 1 (fun t h => d i (t + θ * h) - d i t)) ∧
    (∀ i, i + 1 ≤ p → BigO a b 2
      (fun t h => d i (t + θ * h) - d i t - (θ * h) • d (i + 1) t)) ∧
    (∀ i, i + 2 ≤ p → BigO a b 3
      (fun t h => d i (t + θ * h) - d i t - (θ * h) • d (i + 1) t -
        ((θ * h) ^ 2 / 2) • d (i + 2) t)) ∧
    (∀ i, i + 3 ≤ p → BigO a b 4
      (fun t h => d i (t + θ * h) - d i t - (θ * h) • d (i + 1) t -
        ((θ * h) ^ 2 / 2) • d (i + 2) t - ((θ * h) ^ 3 / 6) • d (i + 3) t)) := by
  obtain ⟨M, hM⟩ := H.bounded
  have hMa : ∀ t, a ≤ t → ∀ h, 0 ≤ h → t + h ≤ b → Set.Icc t (t + h) ⊆ Set.Icc a b :=
    fun t h1 h h2 h3 s hs => ⟨h1.trans hs.1, hs.2.trans h3⟩
  have mem : ∀ t h, 0 ≤ h → t + θ * h ∈ Set.Icc t (t + h) := fun t h hh =>
    ⟨by nlinarith, by nlinarith⟩
  -- successive bounds on `[t, t+h]`
  have b1 : ∀ i ≤ p, ∀ t h, a ≤ t → 0 ≤ h → t + h ≤ b → ∀ s ∈ Set.Icc t (t + h),
      ‖d i s - d i t‖ ≤ M / 1 * (s - t) ^ 1 := by
    intro i hi t h h1 h2 h3
    have := integrate_bound (g := fun s => d i s - d i t) (g' := d (i + 1)) (C := M) (n := 0)
      (t := t) (h := h) (by simp)
      (fun s hs => ((H.deriv i hi s (hMa t h1 h h2 h3 hs)).mono (hMa t h1 h h2 h3)).sub_const _)
      (fun s hs => by simpa using hM (i + 1) (by omega) s (hMa t h1 h h2 h3 hs))
    simpa using this
  have hid : ∀ (t s : ℝ) (S : Set ℝ), HasDerivWithinAt (fun s : ℝ => s - t) 1 S s :=
    fun t s S => (hasDerivWithinAt_id s S).sub_const t
  have b2 : ∀ i, i + 1 ≤ p → ∀ t h, a ≤ t → 0 ≤ h → t + h ≤ b → ∀ s ∈ Set.Icc t (t + h),
      ‖d i s - d i t - (s - t) • d (i + 1) t‖ ≤ M / 2 * (s - t) ^ 2 := by
    intro i hi t h h1 h2 h3
    have := integrate_bound (g := fun s => d i s - d i t - (s - t) • d (i + 1) t)
      (g' := fun s => d (i + 1) s - d (i + 1) t) (C := M) (n := 1)
      (t := t) (h := h) (by simp)
      (fun s hs => by
        have h4 := ((H.deriv i (by omega) s (hMa t h1 h h2 h3 hs)).mono
          (hMa t h1 h h2 h3)).sub_const (d i t)
        have h5 := (hid t s (Set.Icc t (t + h))).smul_const (d (i + 1) t)
        refine (h4.sub h5).congr_deriv ?_
        rw [one_smul])
      (fun s hs => by simpa using b1 (i + 1) (by omega) t h h1 h2 h3 s hs)
    norm_num at this
    exact fun s hs => this s hs.1 hs.2
  have b3 : ∀ i, i + 2 ≤ p → ∀ t h, a ≤ t → 0 ≤ h → t + h ≤ b → ∀ s ∈ Set.Icc t (t + h),
      ‖d i s - d i t - (s - t) • d (i + 1) t - ((s - t) ^ 2 / 2) • d (i + 2) t‖
        ≤ M / 2 / 3 * (s - t) ^ 3 := by
    intro i hi t h h1 h2 h3
    have := integrate_bound
      (g := fun s => d i s - d i t - (s - t) • d (i + 1) t - ((s - t) ^ 2 / 2) • d (i + 2) t)
      (g' := fun s => d (i + 1) s - d (i + 1) t - (s - t) • d (i + 2) t) (C := M / 2) (n := 2)
      (t := t) (h := h) (by simp)
      (fun s hs => by
        have h4 := ((H.deriv i (by omega) s (hMa t h1 h h2 h3 hs)).mono
          (hMa t h1 h h2 h3)).sub_const (d i t)
        have h5 := (hid t s (Set.Icc t (t + h))).smul_const (d (i + 1) t)
        have h6 := (((hid t s (Set.Icc t (t + h))).fun_pow 2).div_const 2).smul_const (d (i + 2) t)
        have h7 := (h4.sub h5).sub h6
        refine h7.congr_deriv ?_
        rw [one_smul]
        congr 2
        norm_num)
      (fun s hs => by simpa using b2 (i + 1) (by omega) t h h1 h2 h3 s hs)
    norm_num at this ⊢
    exact fun s h8 h9 => (this s h8 h9).trans_eq (by ring)
  have b4 : ∀ i, i + 3 ≤ p → ∀ t h, a ≤ t → 0 ≤ h → t + h ≤ b → ∀ s ∈ Set.Icc t (t + h),
      ‖d i s - d i t - (s - t) • d (i + 1) t - ((s - t) ^ 2 / 2) • d (i + 2) t -
        ((s - t) ^ 3 / 6) • d (i + 3) t‖ ≤ M / 2 / 3 / 4 * (s - t) ^ 4 := by
    intro i hi t h h1 h2 h3
    have := integrate_bound
      (g := fun s => d i s - d i t - (s - t) • d (i + 1) t - ((s - t) ^ 2 / 2) • d (i + 2) t -
        ((s - t) ^ 3 / 6) • d (i + 3) t)
      (g' := fun s => d (i + 1) s - d (i + 1) t - (s - t) • d (i + 2) t -
        ((s - t) ^ 2 / 2) • d (i + 3) t) (C := M / 2 / 3) (n := 3)
      (t := t) (h := h) (by simp)
      (fun s hs => by
        have h4 := ((H.deriv i (by omega) s (hMa t h1 h h2 h3 hs)).mono
          (hMa t h1 h h2 h3)).sub_const (d i t)
        have h5 := (hid t s (Set.Icc t (t + h))).smul_const (d (i + 1) t)
        have h6 := (((hid t s (Set.Icc t (t + h))).fun_pow 2).div_const 2).smul_const (d (i + 2) t)
        have h6' := (((hid t s (Set.Icc t (t + h))).fun_pow 3).div_const 6).smul_const (d (i + 3) t)
        have h7 := ((h4.sub h5).sub h6).sub h6'
        refine h7.congr_deriv ?_
        rw [one_smul]
        congr 2
        · congr 1
          norm_num
        · norm_num
          ring)
      (fun s hs => by simpa using b3 (i + 1) (by omega) t h h1 h2 h3 s hs)
    norm_num at this ⊢
    exact fun s h8 h9 => (this s h8 h9).trans_eq (by ring)
  -- conclude at `s = t + θ h`
  have fin : ∀ (C : ℝ) (n : ℕ) (t h : ℝ), 0 ≤ h → C * (t + θ * h - t) ^ n ≤ |C| * h ^ n := by
    intro C n t h hh
    have h5 : (θ * h) ^ n ≤ h ^ n := pow_le_pow_left₀ (by positivity) (by nlinarith) _
    have h6 : 0 ≤ (θ * h) ^ n := by positivity
    rw [add_sub_cancel_left]
    calc C * (θ * h) ^ n ≤ |C| * (θ * h) ^ n := mul_le_mul_of_nonneg_right (le_abs_self _) h6
      _ ≤ _ := mul_le_mul_of_nonneg_left h5 (abs_nonneg _)
  refine ⟨fun i hi => ⟨_, abs_nonneg (M / 1), fun t h h2 h3 h4 => ?_⟩,
    fun i hi => ⟨_, abs_nonneg (M / 2), fun t h h2 h3 h4 => ?_⟩,
    fun i hi => ⟨_, abs_nonneg (M / 2 / 3), fun t h h2 h3 h4 => ?_⟩,
    fun i hi => ⟨_, abs_nonneg (M / 2 / 3 / 4), fun t h h2 h3 h4 => ?_⟩⟩
  · exact (b1 i hi t h h2 h3 h4 _ (mem t h h3)).trans (fin _ _ _ _ h3)
  · have := (b2 i hi t h h2 h3 h4 _ (mem t h h3)).trans (fin _ _ _ _ h3)
    simpa only [add_sub_cancel_left] using this
  · have := (b3 i hi t h h2 h3 h4 _ (mem t h h3)).trans (fin _ _ _ _ h3)
    simpa only [add_sub_cancel_left] using this
  · have := (b4 i hi t h h2 h3 h4 _ (mem t h h3)).trans (fin _ _ _ _ h3)
    simpa only [add_sub_cancel_left] using this

theorem BigO.clm {n : ℕ} {F : ℝ → ℝ → E} (hF : BigO a b n F) {A : ℝ → ℝ → E →L[ℝ] E} {c : ℝ}
    (hA : ∀ t h, a ≤ t → 0 ≤ h → t + h ≤ b → ‖A t h‖ ≤ c) :
    BigO a b n (fun t h => A t h (F t h)) := by
  have := BigO.of_le (m := 1) (F := fun t h => A t h (F t h)) hF (c := c) (fun t h h1 h2 h3 => by
    rw [pow_one]
    exact ((A t h).le_opNorm _).trans
      (mul_le_mul_of_nonneg_right (hA t h h1 h2 h3) (norm_nonneg _)))
  rwa [mul_one] at this

/-- Local error of the first order step. -/
theorem local1 {R : ℝ → E → E} {d : ℕ → ℝ → E} (H : SmoothSolution R a b 1 d) :
    BigO a b 2 (fun t h => step1 R t h (d 0 t) - d 0 (t + h)) := by
  have h2 := (taylor_remainders H zero_le_one le_rfl).2.1 0 (by omega)
  refine (h2.const_smul (-1)).congr fun t h h3 h4 h5 => ?_
  rw [step1, ← H.ode t ⟨h3, by linarith⟩]
  simp only [one_mul, zero_add]
  module

/-- Local error of the second order step. -/
theorem local2 {R : ℝ → E → E} {d : ℕ → ℝ → E} {L : ℝ} (hL : Lip R L)
    (H : SmoothSolution R a b 2 d) :
    BigO a b 3 (fun t h => step2 R t h (d 0 t) - d 0 (t + h)) := by
  obtain ⟨-, t2, t3, -⟩ := taylor_remainders H zero_le_one le_rfl
  have e1 : BigO a b 2 (fun t h => d 0 t + h • d 1 t - d 0 (t + h)) :=
    ((t2 0 (by omega)).const_smul (-1)).congr fun t h h3 h4 h5 => by
      simp only [one_mul, zero_add]; module
  have k2 : BigO a b 2 (fun t h => R (t + h) (d 0 t + h • d 1 t) - d 1 (t + h)) := by
    have := BigO.of_le (m := 1) (F := fun t h => R (t + h) (d 0 t + h • d 1 t) - d 1 (t + h)) e1
      (c := L) (fun t h h1 h2 h3 => by
        rw [pow_one, H.ode (t + h) ⟨by linarith, h3⟩]
        exact hL _ _ _)
    simpa using this
  refine (((k2.mul_h (1 / 2)).add ((t2 1 (by omega)).mul_h (1 / 2))).sub (t3 0 (by omega))).congr
    fun t h h3 h4 h5 => ?_
  rw [step2_eq, ← H.ode t ⟨h3, by linarith⟩]
  simp only [one_mul, zero_add]
  module

/-- Local error of the third order step. -/
theorem local3 {R : ℝ → E → E} {d : ℕ → ℝ → E} {J : ℝ → E →L[ℝ] E}
    (hJ : Linearisable R a b (d 0) J) (H : SmoothSolution R a b 3 d) :
    BigO a b 4 (fun t h => step3 R t h (d 0 t) - d 0 (t + h)) := by
  obtain ⟨M, hM⟩ := H.bounded
  obtain ⟨Q, hQ⟩ := hJ.quad
  obtain ⟨c, hc⟩ := hJ.bounded
  obtain ⟨l, hl⟩ := hJ.lip
  obtain ⟨-, t2, t3, t4⟩ := taylor_remainders H zero_le_one le_rfl
  obtain ⟨-, -, s3, -⟩ := taylor_remainders H (θ := 1 / 2) (by norm_num) (by norm_num)
  have d2 : BigO a b 0 (fun t h => d 2 t) := ⟨|M|, abs_nonneg _, fun t h h1 h2 h3 => by
    simpa using (hM 2 (by omega) t ⟨h1, by linarith⟩).trans (le_abs_self _)⟩
  -- the first stage
  have E1 : BigO a b 3 (fun t h => d 0 t + h • d 1 t - d 0 (t + h) + (h ^ 2 / 2) • d 2 t) :=
    ((t3 0 (by omega)).const_smul (-1)).congr fun t h h3 h4 h5 => by
      simp only [one_mul, zero_add]; module
  have e1 : BigO a b 2 (fun t h => d 0 t + h • d 1 t - d 0 (t + h)) :=
    ((t2 0 (by omega)).const_smul (-1)).congr fun t h h3 h4 h5 => by
      simp only [one_mul, zero_add]; module
  have r2 : BigO a b 4 (fun t h => R (t + h) (d 0 t + h • d 1 t) - d 1 (t + h) -
      J (t + h) (d 0 t + h • d 1 t - d 0 (t + h))) :=
    BigO.of_le (n := 2) (m := 2) e1 (c := Q) (fun t h h1 h2 h3 => by
        rw [H.ode (t + h) ⟨by linarith, h3⟩]
        exact hQ _ ⟨by linarith, h3⟩ _)
  have J1 : BigO a b 2 (fun t h => J (t + h) (d 0 t + h • d 1 t - d 0 (t + h))) :=
    e1.clm (c := c) (fun t h h1 h2 h3 => hc _ ⟨by linarith, h3⟩)
  have k2 : BigO a b 2 (fun t h => R (t + h) (d 0 t + h • d 1 t) - d 1 (t + h)) :=
    (r2.weaken.weaken.add J1).congr fun t h h3 h4 h5 => by module
  -- the second stage
  have E2 : BigO a b 3 (fun t h => half3 R t h (d 0 t) - d 0 (t + h / 2) - (h ^ 2 / 8) • d 2 t) := by
    refine (((k2.mul_h (1 / 4)).add ((t2 1 (by omega)).mul_h (1 / 4))).sub (s3 0 (by omega))).congr
      fun t h h3 h4 h5 => ?_
    rw [half3_eq, ← H.ode t ⟨h3, by linarith⟩]
    simp only [one_mul, zero_add, show t + 1 / 2 * h = t + h / 2 by ring]
    module
  have e2 : BigO a b 2 (fun t h => half3 R t h (d 0 t) - d 0 (t + h / 2)) :=
    (E2.weaken.add ((d2.mul_h 1).mul_h (1 / 8))).congr fun t h h3 h4 h5 => by module
  have mid : ∀ t h, a ≤ t → 0 ≤ h → t + h ≤ b → t + h / 2 ∈ Set.Icc a b :=
    fun t h h1 h2 h3 => ⟨by linarith, by linarith⟩
  have r3 : BigO a b 4 (fun t h => R (t + h / 2) (half3 R t h (d 0 t)) - d 1 (t + h / 2) -
      J (t + h / 2) (half3 R t h (d 0 t) - d 0 (t + h / 2))) :=
    BigO.of_le (n := 2) (m := 2) e2 (c := Q) (fun t h h1 h2 h3 => by
        rw [H.ode _ (mid t h h1 h2 h3)]
        exact hQ _ (mid t h h1 h2 h3) _)
  -- freezing the linearisation at `t`
  have frz : ∀ (θ : ℝ), 0 ≤ θ → θ ≤ 1 → ∀ F : ℝ → ℝ → E, BigO a b 2 F →
      BigO a b 3 (fun t h => (J (t + θ * h) - J t) (F t h)) := by
    intro θ h0 h1 F hF
    have : BigO a b 3 (fun t h => (1 * h) • F t h) := hF.mul_h 1
    have := BigO.of_le (m := 1) (F := fun t h => (J (t + θ * h) - J t) (F t h)) this (c := |l|)
      (fun t h h2 h3 h4 => by
        have h5 := hl (t + θ * h) ⟨by nlinarith, by nlinarith⟩ t ⟨h2, by linarith⟩
        rw [add_sub_cancel_left, abs_of_nonneg (by positivity)] at h5
        have h6 : ‖J (t + θ * h) - J t‖ ≤ |l| * h := by
          refine h5.trans ?_
          calc l * (θ * h) ≤ |l| * (θ * h) :=
                mul_le_mul_of_nonneg_right (le_abs_self _) (by positivity)
            _ ≤ |l| * h := mul_le_mul_of_nonneg_left (by nlinarith) (abs_nonneg _)
        rw [pow_one, norm_smul, Real.norm_eq_abs, one_mul, abs_of_nonneg h3]
        calc _ ≤ _ := (J (t + θ * h) - J t).le_opNorm _
          _ ≤ |l| * h * ‖F t h‖ := mul_le_mul_of_nonneg_right h6 (norm_nonneg _)
          _ = _ := by ring)
    rwa [mul_one] at this
  have z1 := frz 1 zero_le_one le_rfl _ e1
  have z2 := frz (1 / 2) (by norm_num) (by norm_num) _ e2
  have z3 : BigO a b 3 (fun t h => J t ((d 0 t + h • d 1 t - d 0 (t + h) + (h ^ 2 / 2) • d 2 t) +
      (4 : ℝ) • (half3 R t h (d 0 t) - d 0 (t + h / 2) - (h ^ 2 / 8) • d 2 t))) :=
    (E1.add (E2.const_smul 4)).clm (c := c) (fun t h h1 h2 h3 => hc _ ⟨h1, by linarith⟩)
  -- Simpson's rule
  have S := (((t3 1 (by omega)).add ((s3 1 (by omega)).const_smul 4)).mul_h (1 / 6)).sub
    (t4 0 (by omega))
  have W := ((r2.weaken.add (r3.weaken.const_smul 4)).add
    ((z1.add (z2.const_smul 4)).add z3)).mul_h (1 / 6)
  refine (S.add W).congr fun t h h3 h4 h5 => ?_
  rw [step3_eq, ← H.ode t ⟨h3, by linarith⟩]
  simp only [one_mul, zero_add, show t + 1 / 2 * h = t + h / 2 by ring, ContinuousLinearMap.sub_apply]
  simp only [map_add, map_sub, map_smul]
  module

/-- Every step is Lipschitz with constant `exp (h L)`. -/
theorem step_lip (k : Stepper) {R : ℝ → E → E} {L : ℝ} (hL : Lip R L) (h0 : 0 ≤ L) {t h : ℝ}
    (hh : 0 ≤ h) (u v : E) :
    ‖step k R t h u - step k R t h v‖ ≤ Real.exp (h * L) * ‖u - v‖ := by
  have s1 : ∀ t u v, ‖step1 R t h u - step1 R t h v‖ ≤ (1 + h * L) * ‖u - v‖ := by
    intro t u v
    have e : step1 R t h u - step1 R t h v = (u - v) + h • (R t u - R t v) := by
      rw [step1, step1]; module
    rw [e]
    calc _ ≤ ‖u - v‖ + ‖h • (R t u - R t v)‖ := norm_add_le _ _
      _ ≤ ‖u - v‖ + h * (L * ‖u - v‖) := by
        rw [norm_smul, Real.norm_eq_abs, abs_of_nonneg hh]
        have := mul_le_mul_of_nonneg_left (hL t u v) hh
        linarith
      _ = _ := by ring
  have x0 : 0 ≤ h * L := mul_nonneg hh h0
  have n0 := norm_nonneg (u - v)
  have ss : ∀ u v, ‖step1 R (t + h) h (step1 R t h u) - step1 R (t + h) h (step1 R t h v)‖ ≤
      (1 + h * L) ^ 2 * ‖u - v‖ := by
    intro u v
    calc _ ≤ (1 + h * L) * ‖step1 R t h u - step1 R t h v‖ := s1 _ _ _
      _ ≤ (1 + h * L) * ((1 + h * L) * ‖u - v‖) :=
        mul_le_mul_of_nonneg_left (s1 _ _ _) (by linarith)
      _ = _ := by ring
  cases k with
  | rk1 =>
    refine (s1 t u v).trans (mul_le_mul_of_nonneg_right ?_ n0)
    linarith [Real.add_one_le_exp (h * L)]
  | rk2 =>
    change ‖step2 R t h u - step2 R t h v‖ ≤ _
    have e : step2 R t h u - step2 R t h v = (2⁻¹ : ℝ) • ((step1 R (t + h) h (step1 R t h u) -
        step1 R (t + h) h (step1 R t h v)) + (u - v)) := by
      rw [step2, step2]; module
    have h1 : ‖step2 R t h u - step2 R t h v‖ ≤
        (1 + h * L + (h * L) ^ 2 / 2) * ‖u - v‖ := by
      rw [e, norm_smul]
      have h2 := norm_add_le (step1 R (t + h) h (step1 R t h u) -
        step1 R (t + h) h (step1 R t h v)) (u - v)
      have h3 := ss u v
      norm_num
      linarith
    exact h1.trans (mul_le_mul_of_nonneg_right (Real.quadratic_le_exp_of_nonneg x0) n0)
  | rk3 =>
    change ‖step3 R t h u - step3 R t h v‖ ≤ _
    have e1 : half3 R t h u - half3 R t h v = (4⁻¹ : ℝ) • ((step1 R (t + h) h (step1 R t h u) -
        step1 R (t + h) h (step1 R t h v)) + (3 : ℝ) • (u - v)) := by
      rw [half3, half3]; module
    have h1 : ‖half3 R t h u - half3 R t h v‖ ≤
        (((1 + h * L) ^ 2 + 3) / 4) * ‖u - v‖ := by
      rw [e1, norm_smul]
      have h2 := norm_add_le (step1 R (t + h) h (step1 R t h u) -
        step1 R (t + h) h (step1 R t h v)) ((3 : ℝ) • (u - v))
      have h3 := ss u v
      rw [norm_smul] at h2
      norm_num at h2 ⊢
      linarith
    have e : step3 R t h u - step3 R t h v = (3⁻¹ : ℝ) • ((2 : ℝ) •
        (step1 R (t + h / 2) h (half3 R t h u) - step1 R (t + h / 2) h (half3 R t h v)) +
        (u - v)) := by
      rw [step3, step3]; module
    have h4 : ‖step3 R t h u - step3 R t h v‖ ≤
        (∑ i ∈ Finset.range 4, (h * L) ^ i / (i.factorial : ℝ)) * ‖u - v‖ := by
      rw [e, norm_smul]
      have h2 := norm_add_le ((2 : ℝ) • (step1 R (t + h / 2) h (half3 R t h u) -
        step1 R (t + h / 2) h (half3 R t h v))) (u - v)
      have h3 := (s1 (t + h / 2) (half3 R t h u) (half3 R t h v)).trans
        (mul_le_mul_of_nonneg_left h1 (by linarith))
      rw [norm_smul] at h2
      simp only [Finset.sum_range_succ, Finset.sum_range_zero, Nat.factorial]
      norm_num at h2 ⊢
      nlinarith
    exact h4.trans (mul_le_mul_of_nonneg_right (Real.sum_le_exp_of_nonneg x0 4) n0)

/-- From local to global error. -/
theorem global_of_local (k : Stepper) {R : ℝ → E → E} {y : ℝ → E} {L : ℝ} (hL : Lip R L)
    (h0 : 0 ≤ L) {p : ℕ} (hloc : BigO a b (p + 1) (fun t h => step k R t h (y t) - y (t + h))) :
    ∃ C, ∀ (n : ℕ) (h : ℝ), 0 ≤ h → h * n ≤ b - a → ∀ s : Sys ℝ E, s.sol = y a →
      ‖(run k R a h n s).sol - y (a + h * n)‖ ≤ C * h ^ p := by
  obtain ⟨C, hC, hl⟩ := hloc
  refine ⟨(b - a) * Real.exp ((b - a) * L) * C, fun n h hh hn s hs => ?_⟩
  have key : ∀ m : ℕ, m ≤ n → ‖(run k R a h m s).sol - y (a + h * m)‖ ≤
      (h * m) * Real.exp (h * m * L) * C * h ^ p := by
    intro m
    induction m with
    | zero => intro _; simp [run, hs]
    | succ m ih =>
      intro hm
      have h1 := ih (by omega)
      have hmn : (h * m + h : ℝ) ≤ b - a := by
        have : ((m + 1 : ℕ) : ℝ) ≤ n := by exact_mod_cast hm
        push_cast at this
        nlinarith
      have hm0 : 0 ≤ h * m := by positivity
      have h2 := hl (a + h * m) h (by linarith) hh (by linarith)
      have h3 := step_lip k hL h0 (t := a + h * m) hh (run k R a h m s).sol (y (a + h * m))
      rw [run_succ_sol]
      have e : (a + h * ((m + 1 : ℕ) : ℝ)) = a + h * m + h := by push_cast; ring
      rw [e]
      have tri : ‖step k R (a + h * m) h (run k R a h m s).sol - y (a + h * m + h)‖ ≤
          ‖step k R (a + h * m) h (run k R a h m s).sol - step k R (a + h * m) h (y (a + h * m))‖ +
          ‖step k R (a + h * m) h (y (a + h * m)) - y (a + h * m + h)‖ := by
        refine le_trans (le_of_eq ?_) (norm_add_le _ _)
        congr 1
        abel
      have e2 : Real.exp (h * ((m + 1 : ℕ) : ℝ) * L) = Real.exp (h * L) * Real.exp (h * m * L) := by
        rw [← Real.exp_add]; congr 1; push_cast; ring
      have p1 : 1 ≤ Real.exp (h * L) * Real.exp (h * m * L) := by
        rw [← Real.exp_add]
        exact Real.one_le_exp (by positivity)
      have hp : 0 ≤ C * h ^ (p + 1) := by positivity
      calc _ ≤ _ := tri
        _ ≤ Real.exp (h * L) * ((h * m) * Real.exp (h * m * L) * C * h ^ p) + C * h ^ (p + 1) :=
          add_le_add (h3.trans (mul_le_mul_of_nonneg_left h1 (Real.exp_pos _).le)) h2
        _ ≤ Real.exp (h * L) * ((h * m) * Real.exp (h * m * L) * C * h ^ p) +
            (Real.exp (h * L) * Real.exp (h * m * L)) * (C * h ^ (p + 1)) := by
          have := mul_le_mul_of_nonneg_right p1 hp
          linarith
        _ = _ := by rw [e2]; push_cast; ring
  refine (key n le_rfl).trans ?_
  have hn0 : 0 ≤ h * n := by positivity
  have : Real.exp (h * n * L) ≤ Real.exp ((b - a) * L) :=
    Real.exp_le_exp.2 (mul_le_mul_of_nonneg_right hn h0)
  have hp : 0 ≤ C * h ^ p := by positivity
  have h5 : h * n * Real.exp (h * n * L) ≤ (b - a) * Real.exp ((b - a) * L) :=
    mul_le_mul hn this (Real.exp_pos _).le (by linarith)
  calc _ = (h * n * Real.exp (h * n * L)) * (C * h ^ p) := by ring
    _ ≤ ((b - a) * Real.exp ((b - a) * L)) * (C * h ^ p) := mul_le_mul_of_nonneg_right h5 hp
    _ = _ := by ring

end order
end MiniCFD.RK
