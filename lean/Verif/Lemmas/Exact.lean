import Verif.Spec.Exact
import Verif.Lemmas.Euler
import Mathlib.Analysis.Calculus.Deriv.MeanValue
import Mathlib.Analysis.Convex.Deriv
import Mathlib.Analysis.SpecialFunctions.Pow.Deriv
import Mathlib.Analysis.SpecialFunctions.Sqrt
import Mathlib.Analysis.SpecificLimits.Basic
import Mathlib.Tactic.NormNum

namespace MiniCFD.Exact
open MiniCFD.Euler MiniCFD.Spec.Exact

theorem c_pos {γ : ℝ} (hγ : 1 < γ) {s : P3} (h : Good s) : 0 < c γ s :=
  Real.sqrt_pos.2 (div_pos (mul_pos (by linarith) h.2) h.1)

theorem c_sq {γ : ℝ} (hγ : 1 < γ) {s : P3} (h : Good s) : c γ s * c γ s = γ * s.p / s.rho :=
  Real.mul_self_sqrt (div_pos (mul_pos (by linarith) h.2) h.1).le

theorem sound3_eq {γ : ℝ} {s : P3} (h : Good s) : sound3 γ s = c γ s := by
  unfold sound3 c
  rw [if_neg]
  rintro (h' | h')
  · exact absurd h.1 (not_lt.2 h')
  · exact absurd h.2 (not_lt.2 h')

theorem bigP_pos {γ : ℝ} (hγ : 1 < γ) {s : P3} (h : Good s) {p : ℝ} (hp : 0 ≤ p) :
    0 < bigP γ s p := by
  unfold bigP
  have := h.2
  have : 0 < s.p * ((γ - 1) / 2) := mul_pos h.2 (by linarith)
  have : 0 ≤ (γ + 1) / 2 * p := mul_nonneg (by linarith) hp
  linarith

/-- Shock branch. -/
noncomputable def phi (γ : ℝ) (b : P3) (p : ℝ) : ℝ := (p - b.p) / Real.sqrt (b.rho * bigP γ b p)

/-- Expansion branch. -/
noncomputable def psi (γ : ℝ) (b : P3) (p : ℝ) : ℝ :=
  ((p / b.p) ^ ((γ - 1) / 2 / γ) - 1) * (2 / (γ - 1) * c γ b)

noncomputable def phi' (γ : ℝ) (b : P3) (p : ℝ) : ℝ :=
  (1 + (γ + 1) / 4 * (b.p - p) / bigP γ b p) / Real.sqrt (b.rho * bigP γ b p)

noncomputable def psi' (γ : ℝ) (b : P3) (p : ℝ) : ℝ :=
  (p / b.p) ^ (-((γ + 1) / 2) / γ) / (b.rho * c γ b)

theorem speedChange_eq {γ : ℝ} {b : P3} (h : Good b) (p : ℝ) :
    speedChange γ b p = if b.p ≤ p then phi γ b p else psi γ b p := by
  unfold speedChange phi psi
  simp only [if_neg h.1.ne', sound3_eq h, ge_iff_le]

theorem speedChangePrime_eq {γ : ℝ} {b : P3} (h : Good b) (p : ℝ) :
    speedChangePrime γ b p = if b.p ≤ p then phi' γ b p else psi' γ b p := by
  unfold speedChangePrime phi' psi'
  simp only [if_neg h.1.ne', sound3_eq h, ge_iff_le]

theorem phi_deriv {γ : ℝ} (hγ : 1 < γ) {b : P3} (h : Good b) {p : ℝ} (hp : 0 < p) :
    HasDerivAt (phi γ b) (phi' γ b p) p := by
  have hP := bigP_pos hγ h hp.le
  have hrP : 0 < b.rho * bigP γ b p := mul_pos h.1 hP
  have d1 : HasDerivAt (fun p => p - b.p) 1 p := (hasDerivAt_id p).sub_const _
  have d2 : HasDerivAt (fun p => b.rho * bigP γ b p) (b.rho * ((γ + 1) / 2)) p := by
    have : HasDerivAt (fun p => (γ + 1) / 2 * p + b.p * ((γ - 1) / 2)) ((γ + 1) / 2 * 1) p :=
      ((hasDerivAt_id p).const_mul _).add_const _
    rw [mul_one] at this
    exact this.const_mul _
  have d3 := d2.sqrt hrP.ne'
  have d4 := d1.div d3 (Real.sqrt_pos.2 hrP).ne'
  refine d4.congr_deriv ?_
  unfold phi'
  have hs := Real.mul_self_sqrt hrP.le
  have hs0 := (Real.sqrt_pos.2 hrP).ne'
  generalize Real.sqrt (b.rho * bigP γ b p) = w at *
  have e : w ^ 2 = b.rho * bigP γ b p := by rw [pow_two]; exact hs
  rw [e]
  have h1 := h.1.ne'
  have h2 := hP.ne'
  generalize bigP γ b p = P at *
  field_simp
  linear_combination (16 : ℝ) * e

theorem psi_deriv {γ : ℝ} (hγ : 1 < γ) {b : P3} (h : Good b) {p : ℝ} (hp : 0 < p) :
    HasDerivAt (psi γ b) (psi' γ b p) p := by
  have hb := h.2
  have d1 : HasDerivAt (fun p => p / b.p) (1 / b.p) p := (hasDerivAt_id p).div_const _
  have d2 := d1.rpow_const (p := (γ - 1) / 2 / γ) (Or.inl (div_pos hp hb).ne')
  have d3 := (d2.sub_const 1).mul_const (2 / (γ - 1) * c γ b)
  refine d3.congr_deriv ?_
  unfold psi'
  have hγ0 : γ ≠ 0 := by linarith
  have hγ1 : γ - 1 ≠ 0 := by linarith
  have e : (γ - 1) / 2 / γ - 1 = -((γ + 1) / 2) / γ := by field_simp; ring
  rw [e]
  have hc := c_sq hγ h
  have hc0 := (c_pos hγ h).ne'
  have h1 := h.1.ne'
  generalize c γ b = a at *
  field_simp at hc ⊢
  linear_combination hc

theorem phi'_at {γ : ℝ} (hγ : 1 < γ) {b : P3} (h : Good b) : phi' γ b b.p = 1 / (b.rho * c γ b) := by
  unfold phi'
  have e : bigP γ b b.p = γ * b.p := by unfold bigP; ring
  have e2 : b.rho * bigP γ b b.p = (b.rho * c γ b) * (b.rho * c γ b) := by
    have hc := c_sq hγ h
    have h1 := h.1.ne'
    rw [e]
    field_simp at hc
    linear_combination (-b.rho) * hc
  rw [e2, Real.sqrt_mul_self (mul_pos h.1 (c_pos hγ h)).le, sub_self]
  simp

theorem psi'_at {γ : ℝ} {b : P3} (h : Good b) : psi' γ b b.p = 1 / (b.rho * c γ b) := by
  unfold psi'
  rw [div_self h.2.ne', Real.one_rpow]

theorem phi_at {γ : ℝ} {b : P3} : phi γ b b.p = 0 := by simp [phi]
theorem psi_at {γ : ℝ} {b : P3} (h : Good b) : psi γ b b.p = 0 := by
  unfold psi
  rw [div_self h.2.ne', Real.one_rpow]; simp

theorem speedChange_deriv {γ : ℝ} (hγ : 1 < γ) {b : P3} (h : Good b) {p : ℝ} (hp : 0 < p) :
    HasDerivAt (speedChange γ b) (speedChangePrime γ b p) p := by
  rw [speedChangePrime_eq h]
  rcases lt_trichotomy p b.p with hlt | heq | hgt
  · rw [if_neg (not_le.2 hlt)]
    refine (psi_deriv hγ h hp).congr_of_eventuallyEq ?_
    filter_upwards [Iio_mem_nhds hlt] with q hq
    rw [speedChange_eq h, if_neg (not_le.2 hq)]
  · subst heq
    rw [if_pos le_rfl]
    have w1 : HasDerivWithinAt (speedChange γ b) (phi' γ b b.p) (Set.Ici b.p) b.p := by
      refine (phi_deriv hγ h h.2).hasDerivWithinAt.congr ?_ ?_
      · intro q hq; rw [speedChange_eq h, if_pos (show b.p ≤ q from hq)]
      · rw [speedChange_eq h, if_pos le_rfl]
    have w2 : HasDerivWithinAt (speedChange γ b) (phi' γ b b.p) (Set.Iic b.p) b.p := by
      rw [phi'_at hγ h, ← psi'_at h]
      refine (psi_deriv hγ h h.2).hasDerivWithinAt.congr ?_ ?_
      · intro q hq
        rw [speedChange_eq h]
        rcases eq_or_lt_of_le (show q ≤ b.p from hq) with e | e
        · rw [e, if_pos le_rfl, phi_at, psi_at h]
        · rw [if_neg (not_le.2 e)]
      · rw [speedChange_eq h, if_pos le_rfl, phi_at, psi_at h]
    have := w1.union w2
    rw [Set.union_comm, Set.Iic_union_Ici] at this
    exact hasDerivWithinAt_univ.1 this
  · rw [if_pos hgt.le]
    refine (phi_deriv hγ h hp).congr_of_eventuallyEq ?_
    filter_upwards [Ioi_mem_nhds hgt] with q hq
    rw [speedChange_eq h, if_pos (le_of_lt hq)]

theorem phi'_pos {γ : ℝ} (hγ : 1 < γ) {b : P3} (h : Good b) {p : ℝ} (hp : 0 < p) :
    0 < phi' γ b p := by
  have hP := bigP_pos hγ h hp.le
  refine div_pos ?_ (Real.sqrt_pos.2 (mul_pos h.1 hP))
  have : (γ + 1) / 4 * (b.p - p) / bigP γ b p = -((γ + 1) / 4 * (p - b.p) / bigP γ b p) := by ring
  rw [this, ← sub_eq_add_neg, sub_pos, div_lt_one hP]
  unfold bigP
  have h1 : 0 < (γ + 1) * p := mul_pos (by linarith) hp
  have h2 : 0 < (γ - 1) * b.p := mul_pos (by linarith) h.2
  have h3 : 0 < (γ + 1) * b.p := mul_pos (by linarith) h.2
  linarith

theorem psi'_pos {γ : ℝ} (hγ : 1 < γ) {b : P3} (h : Good b) {p : ℝ} (hp : 0 < p) :
    0 < psi' γ b p :=
  div_pos (Real.rpow_pos_of_pos (div_pos hp h.2) _) (mul_pos h.1 (c_pos hγ h))

theorem speedChangePrime_pos {γ : ℝ} (hγ : 1 < γ) {b : P3} (h : Good b) {p : ℝ} (hp : 0 < p) :
    0 < speedChangePrime γ b p := by
  rw [speedChangePrime_eq h]
  split
  · exact phi'_pos hγ h hp
  · exact psi'_pos hγ h hp

theorem phi'_anti {γ : ℝ} (hγ : 1 < γ) {b : P3} (h : Good b) {p q : ℝ} (hp : 0 < p)
    (hpq : p ≤ q) : phi' γ b q ≤ phi' γ b p := by
  have hP := bigP_pos hγ h hp.le
  have hQ := bigP_pos hγ h (hp.le.trans hpq)
  have hq0 : 0 < q := lt_of_lt_of_le hp hpq
  have hPQ : bigP γ b p ≤ bigP γ b q := by
    unfold bigP
    have : (γ + 1) / 2 * p ≤ (γ + 1) / 2 * q := mul_le_mul_of_nonneg_left hpq (by linarith)
    linarith
  unfold phi'
  refine div_le_div₀ ?_ ?_ (Real.sqrt_pos.2 (mul_pos h.1 hP)) ?_
  · have := phi'_pos hγ h hp
    unfold phi' at this
    rw [div_pos_iff_of_pos_right (Real.sqrt_pos.2 (mul_pos h.1 hP))] at this
    exact this.le
  · have : (γ + 1) / 4 * (b.p - q) / bigP γ b q ≤ (γ + 1) / 4 * (b.p - p) / bigP γ b p := by
      rw [div_le_div_iff₀ hQ hP]
      unfold bigP
      have k : 0 ≤ (γ + 1) / 4 * (b.p * γ) * (q - p) := by
        refine mul_nonneg (mul_nonneg (by linarith) (mul_nonneg h.2.le (by linarith))) (by linarith)
      nlinarith [k]
    linarith
  · exact Real.sqrt_le_sqrt (mul_le_mul_of_nonneg_left hPQ h.1.le)

theorem psi'_anti {γ : ℝ} (hγ : 1 < γ) {b : P3} (h : Good b) {p q : ℝ} (hp : 0 < p)
    (hpq : p ≤ q) : psi' γ b q ≤ psi' γ b p := by
  unfold psi'
  refine div_le_div_of_nonneg_right ?_ (mul_pos h.1 (c_pos hγ h)).le
  refine Real.rpow_le_rpow_of_nonpos (div_pos hp h.2) (div_le_div_of_nonneg_right hpq h.2.le) ?_
  rw [neg_div]
  have : 0 < (γ + 1) / 2 / γ := by apply div_pos <;> linarith
  linarith

theorem speedChangePrime_anti {γ : ℝ} (hγ : 1 < γ) {b : P3} (h : Good b) {p q : ℝ} (hp : 0 < p)
    (hpq : p ≤ q) : speedChangePrime γ b q ≤ speedChangePrime γ b p := by
  rw [speedChangePrime_eq h, speedChangePrime_eq h]
  by_cases h1 : b.p ≤ p
  · rw [if_pos h1, if_pos (h1.trans hpq)]; exact phi'_anti hγ h hp hpq
  · rw [if_neg h1]
    push Not at h1
    by_cases h2 : b.p ≤ q
    · rw [if_pos h2]
      calc phi' γ b q ≤ phi' γ b b.p := phi'_anti hγ h h.2 h2
        _ = psi' γ b b.p := by rw [phi'_at hγ h, psi'_at h]
        _ ≤ psi' γ b p := psi'_anti hγ h hp h1.le
    · rw [if_neg h2]; exact psi'_anti hγ h hp hpq

theorem speedChange_cont_zero {γ : ℝ} (hγ : 1 < γ) {b : P3} (h : Good b) :
    ContinuousAt (speedChange γ b) 0 := by
  have hc : ContinuousAt (psi γ b) 0 := by
    unfold psi
    have : ContinuousAt (fun p : ℝ => (p / b.p) ^ ((γ - 1) / 2 / γ)) 0 := by
      refine ContinuousAt.rpow_const ?_ (Or.inr ?_)
      · exact (continuous_id.div_const _).continuousAt
      · exact (div_pos (by linarith) (by linarith)).le
    exact (this.sub continuousAt_const).mul continuousAt_const
  refine hc.congr ?_
  filter_upwards [Iio_mem_nhds h.2] with q hq
  rw [speedChange_eq h, if_neg (not_le.2 hq)]

theorem speedChange_cont {γ : ℝ} (hγ : 1 < γ) {b : P3} (h : Good b) :
    ContinuousOn (speedChange γ b) (Set.Ici 0) := by
  intro p hp
  rcases eq_or_lt_of_le (show (0 : ℝ) ≤ p from hp) with e | e
  · subst e; exact (speedChange_cont_zero hγ h).continuousWithinAt
  · exact (speedChange_deriv hγ h e).continuousAt.continuousWithinAt

theorem speedChange_strictMono {γ : ℝ} (hγ : 1 < γ) {b : P3} (h : Good b) :
    StrictMonoOn (speedChange γ b) (Set.Ici 0) := by
  refine strictMonoOn_of_deriv_pos (convex_Ici 0) (speedChange_cont hγ h) ?_
  intro p hp
  rw [interior_Ici] at hp
  rw [(speedChange_deriv hγ h hp).deriv]
  exact speedChangePrime_pos hγ h hp

/-! ### The pressure function -/

theorem pressureFn_strictMono {γ : ℝ} (hγ : 1 < γ) {l r : P3} (hl : Good l) (hr : Good r) :
    StrictMonoOn (pressureFn γ l r) (Set.Ici 0) := by
  intro p hp q hq hpq
  have h1 := speedChange_strictMono hγ hl hp hq hpq
  have h2 := speedChange_strictMono hγ hr hp hq hpq
  unfold pressureFn
  linarith

theorem pressureFn_deriv {γ : ℝ} (hγ : 1 < γ) {l r : P3} (hl : Good l) (hr : Good r) {p : ℝ}
    (hp : 0 < p) : HasDerivAt (pressureFn γ l r) (pressureFnPrime γ l r p) p :=
  ((speedChange_deriv hγ hl hp).add (speedChange_deriv hγ hr hp)).add_const _

theorem pressureFnPrime_pos {γ : ℝ} (hγ : 1 < γ) {l r : P3} (hl : Good l) (hr : Good r) {p : ℝ}
    (hp : 0 < p) : 0 < pressureFnPrime γ l r p :=
  add_pos (speedChangePrime_pos hγ hl hp) (speedChangePrime_pos hγ hr hp)

theorem pressureFnPrime_anti {γ : ℝ} (hγ : 1 < γ) {l r : P3} (hl : Good l) (hr : Good r) {p q : ℝ}
    (hp : 0 < p) (hpq : p ≤ q) : pressureFnPrime γ l r q ≤ pressureFnPrime γ l r p :=
  add_le_add (speedChangePrime_anti hγ hl hp hpq) (speedChangePrime_anti hγ hr hp hpq)

theorem pressureFn_cont_zero {γ : ℝ} (hγ : 1 < γ) {l r : P3} (hl : Good l) (hr : Good r) :
    ContinuousAt (pressureFn γ l r) 0 :=
  ((speedChange_cont_zero hγ hl).add (speedChange_cont_zero hγ hr)).add continuousAt_const

/-- Tangents lie above the graph. -/
theorem pressureFn_tangent {γ : ℝ} (hγ : 1 < γ) {l r : P3} (hl : Good l) (hr : Good r) {p q : ℝ}
    (hp : 0 < p) (hq : 0 < q) :
    pressureFn γ l r q ≤ pressureFn γ l r p + pressureFnPrime γ l r p * (q - p) := by
  have hd := fun x (hx : 0 < x) => pressureFn_deriv hγ hl hr hx
  rcases lt_trichotomy p q with h | h | h
  · obtain ⟨x, hx, e⟩ := exists_hasDerivAt_eq_slope (pressureFn γ l r) (pressureFnPrime γ l r) h
      (fun x hx => (hd x (lt_of_lt_of_le hp hx.1)).continuousAt.continuousWithinAt)
      (fun x hx => hd x (lt_trans hp hx.1))
    have ha := pressureFnPrime_anti hγ hl hr hp hx.1.le
    rw [e, div_le_iff₀ (by linarith)] at ha
    linarith
  · subst h; simp
  · obtain ⟨x, hx, e⟩ := exists_hasDerivAt_eq_slope (pressureFn γ l r) (pressureFnPrime γ l r) h
      (fun x hx => (hd x (lt_of_lt_of_le hq hx.1)).continuousAt.continuousWithinAt)
      (fun x hx => hd x (lt_trans hq hx.1))
    have ha := pressureFnPrime_anti hγ hl hr (lt_trans hq hx.1) hx.2.le
    rw [e, le_div_iff₀ (by linarith)] at ha
    linarith

/-! ### The root finder -/

theorem halve_more {f : ℝ → ℝ} {n m : Nat} (h : n ≤ m) {x y : ℝ} (e : halve f n x = some y) :
    halve f m x = some y := by
  induction n generalizing m x with
  | zero =>
    unfold halve at e
    split at e
    · cases e
    · rename_i h'
      cases m with
      | zero => unfold halve; rw [if_neg h']; exact e
      | succ m => unfold halve; rw [if_neg h']; exact e
  | succ n ih =>
    cases m with
    | zero => omega
    | succ m =>
      unfold halve at e ⊢
      split at e
      · rename_i h'; rw [if_pos h']; exact ih (by omega) e
      · rename_i h'; rw [if_neg h']; exact e

theorem newton_more {f f' : ℝ → ℝ} {eps : ℝ} {n m : Nat} (h : n ≤ m) {x y : ℝ}
    (e : newton f f' eps n x = some y) : newton f f' eps m x = some y := by
  induction n generalizing m x with
  | zero =>
    unfold newton at e
    split at e
    · cases e
    · rename_i h'
      cases m with
      | zero => unfold newton; rw [if_neg h']; exact e
      | succ m => unfold newton; rw [if_neg h']; exact e
  | succ n ih =>
    cases m with
    | zero => omega
    | succ m =>
      unfold newton at e ⊢
      split at e
      · rename_i h'; rw [if_pos h']; exact ih (by omega) e
      · rename_i h'; rw [if_neg h']; exact e

theorem findRoot_more {f f' : ℝ → ℝ} {eps : ℝ} {n m : Nat} (h : n ≤ m) {x y : ℝ}
    (e : findRoot n f f' x eps = some y) : findRoot m f f' x eps = some y := by
  unfold findRoot at e ⊢
  rcases e1 : halve f n x with _ | z
  · rw [e1] at e; cases e
  · rw [e1] at e
    rw [halve_more h e1]
    exact newton_more h e

theorem halve_spec {f : ℝ → ℝ} {n : Nat} {x y : ℝ} (hx : 0 < x) (e : halve f n x = some y) :
    0 < y ∧ f y ≤ 0 := by
  induction n generalizing x with
  | zero =>
    unfold halve at e
    split at e
    · cases e
    · cases e; exact ⟨hx, by linarith⟩
  | succ n ih =>
    unfold halve at e
    split at e
    · exact ih (by linarith) e
    · cases e; exact ⟨hx, by linarith⟩

theorem halve_done {f : ℝ → ℝ} {n : Nat} {x : ℝ} (h : f (x * (1 / 2) ^ n) ≤ 0) :
    ∃ y, halve f n x = some y := by
  induction n generalizing x with
  | zero =>
    unfold halve
    rw [pow_zero, mul_one] at h
    exact ⟨x, if_neg (not_lt.2 h)⟩
  | succ n ih =>
    unfold halve
    split
    · apply ih
      rw [mul_assoc, ← pow_succ']
      exact h
    · exact ⟨x, rfl⟩

theorem newton_spec {γ : ℝ} (hγ : 1 < γ) {l r : P3} (hl : Good l) (hr : Good r) {eps : ℝ}
    (he : 0 ≤ eps) {n : Nat} {x y : ℝ} (hx : 0 < x) (hf : pressureFn γ l r x ≤ 0)
    (e : newton (pressureFn γ l r) (pressureFnPrime γ l r) eps n x = some y) :
    x ≤ y ∧ -eps ≤ pressureFn γ l r y ∧ pressureFn γ l r y ≤ 0 := by
  induction n generalizing x with
  | zero =>
    unfold newton at e
    split at e
    · cases e
    · cases e; exact ⟨le_rfl, by linarith, hf⟩
  | succ n ih =>
    unfold newton at e
    split at e
    · rename_i h'
      have hd := pressureFnPrime_pos hγ hl hr hx
      have hstep : pressureFn γ l r x / pressureFnPrime γ l r x ≤ 0 :=
        div_nonpos_of_nonpos_of_nonneg hf hd.le
      have hx' : 0 < x - pressureFn γ l r x / pressureFnPrime γ l r x := by linarith
      have ht := pressureFn_tangent hγ hl hr hx hx'
      have e0 : pressureFnPrime γ l r x *
          (x - pressureFn γ l r x / pressureFnPrime γ l r x - x) = -pressureFn γ l r x := by
        field_simp; ring
      rw [e0] at ht
      obtain ⟨h1, h2⟩ := ih hx' (by linarith) e
      exact ⟨by linarith, h2⟩
    · rename_i h'
      cases e; exact ⟨le_rfl, by linarith, hf⟩

theorem newton_done {γ : ℝ} (hγ : 1 < γ) {l r : P3} (hl : Good l) (hr : Good r) {eps : ℝ}
    (he : 0 < eps) {B : ℝ} (hB : 0 ≤ pressureFn γ l r B) {x0 : ℝ} (h0 : 0 < x0) (hB0 : 0 ≤ B)
    {n : Nat} {x : ℝ} (hx : x0 ≤ x) (hf : pressureFn γ l r x ≤ 0)
    (hn : B ≤ x + n * (eps / pressureFnPrime γ l r x0)) :
    ∃ y, newton (pressureFn γ l r) (pressureFnPrime γ l r) eps n x = some y := by
  induction n generalizing x with
  | zero =>
    unfold newton
    refine ⟨x, if_neg ?_⟩
    have hBx : B ≤ x := by simpa using hn
    have := (pressureFn_strictMono hγ hl hr).monotoneOn hB0 (h0.le.trans hx) hBx
    linarith
  | succ n ih =>
    unfold newton
    split
    · rename_i h'
      have hx0 : 0 < x := lt_of_lt_of_le h0 hx
      have hd := pressureFnPrime_pos hγ hl hr hx0
      have hd0 := pressureFnPrime_pos hγ hl hr h0
      have hstep : eps / pressureFnPrime γ l r x0 ≤
          -(pressureFn γ l r x / pressureFnPrime γ l r x) := by
        rw [← neg_div]
        exact div_le_div₀ (by linarith) (by linarith) hd (pressureFnPrime_anti hγ hl hr h0 hx)
      have hpos : 0 < eps / pressureFnPrime γ l r x0 := div_pos he hd0
      have hx' : 0 < x - pressureFn γ l r x / pressureFnPrime γ l r x := by linarith
      have ht := pressureFn_tangent hγ hl hr hx0 hx'
      have e0 : pressureFnPrime γ l r x *
          (x - pressureFn γ l r x / pressureFnPrime γ l r x - x) = -pressureFn γ l r x := by
        field_simp; ring
      rw [e0] at ht
      apply ih (by linarith) (by linarith)
      push_cast at hn
      linarith
    · exact ⟨x, rfl⟩

theorem speedChange_large {γ : ℝ} (hγ : 1 < γ) {b : P3} (h : Good b) {M : ℝ} (hM : 0 ≤ M) {p : ℝ}
    (h1 : 2 * b.p ≤ p) (h2 : 4 * (b.rho * γ) * M ^ 2 ≤ p) : M ≤ speedChange γ b p := by
  have hb := h.2
  have hρ := h.1
  rw [speedChange_eq h, if_pos (by linarith)]
  unfold phi
  have hp : 0 < p := by linarith
  have hP := bigP_pos hγ h hp.le
  rw [le_div_iff₀ (Real.sqrt_pos.2 (mul_pos hρ hP)), ← Real.sqrt_sq hM,
    ← Real.sqrt_mul (sq_nonneg M)]
  refine Real.sqrt_le_iff.2 ⟨by linarith, ?_⟩
  have hP2 : bigP γ b p ≤ γ * p := by
    unfold bigP
    have : b.p * ((γ - 1) / 2) ≤ p * ((γ - 1) / 2) :=
      mul_le_mul_of_nonneg_right (by linarith) (by linarith)
    linarith
  calc M ^ 2 * (b.rho * bigP γ b p) ≤ M ^ 2 * (b.rho * (γ * p)) :=
        mul_le_mul_of_nonneg_left (mul_le_mul_of_nonneg_left hP2 hρ.le) (sq_nonneg M)
    _ = (4 * (b.rho * γ) * M ^ 2) * p / 4 := by ring
    _ ≤ p * p / 4 := by
        have := mul_le_mul_of_nonneg_right h2 hp.le
        linarith
    _ ≤ (p - b.p) ^ 2 := by nlinarith

theorem pressureFn_large {γ : ℝ} (hγ : 1 < γ) {l r : P3} (hl : Good l) (hr : Good r) :
    ∃ B, 0 ≤ B ∧ 0 ≤ pressureFn γ l r B := by
  have k1 := hl.2
  have k2 := hr.2
  have k3 : 0 ≤ 4 * (l.rho * γ) * |l.u - r.u| ^ 2 := by
    have := hl.1
    positivity
  refine ⟨2 * l.p + 2 * r.p + 4 * (l.rho * γ) * |l.u - r.u| ^ 2, by linarith, ?_⟩
  have h1 := speedChange_large hγ hl (abs_nonneg (l.u - r.u))
    (p := 2 * l.p + 2 * r.p + 4 * (l.rho * γ) * |l.u - r.u| ^ 2) (by linarith) (by linarith)
  have h2 := speedChange_large hγ hr (le_refl 0)
    (p := 2 * l.p + 2 * r.p + 4 * (l.rho * γ) * |l.u - r.u| ^ 2) (by linarith) (by
      simp only [ne_eq, OfNat.ofNat_ne_zero, not_false_eq_true, zero_pow, mul_zero]; linarith)
  unfold pressureFn
  have := le_abs_self (l.u - r.u)
  linarith

theorem findRoot_spec {γ : ℝ} (hγ : 1 < γ) {l r : P3} (hl : Good l) (hr : Good r) {eps : ℝ}
    (he : 0 ≤ eps) {n : Nat} {x y : ℝ} (hx : 0 < x)
    (e : findRoot n (pressureFn γ l r) (pressureFnPrime γ l r) x eps = some y) :
    0 < y ∧ -eps ≤ pressureFn γ l r y ∧ pressureFn γ l r y ≤ 0 := by
  unfold findRoot at e
  rcases e1 : halve (pressureFn γ l r) n x with _ | z
  · rw [e1] at e; cases e
  · rw [e1] at e
    obtain ⟨h1, h2⟩ := halve_spec hx e1
    obtain ⟨h3, h4⟩ := newton_spec hγ hl hr he h1 h2 e
    exact ⟨by linarith, h4⟩

theorem findRoot_done {γ : ℝ} (hγ : 1 < γ) {l r : P3} (hl : Good l) (hr : Good r) {eps : ℝ}
    (he : 0 < eps) {x : ℝ} (hx : 0 < x) (h0 : pressureFn γ l r 0 < 0) :
    ∃ n y, findRoot n (pressureFn γ l r) (pressureFnPrime γ l r) x eps = some y := by
  have hlim : Filter.Tendsto (fun n : ℕ => x * (1 / 2 : ℝ) ^ n) Filter.atTop (nhds (x * 0)) :=
    (tendsto_pow_atTop_nhds_zero_of_lt_one (by norm_num) (by norm_num)).const_mul x
  rw [mul_zero] at hlim
  have hc : Filter.Tendsto (fun n : ℕ => pressureFn γ l r (x * (1 / 2 : ℝ) ^ n)) Filter.atTop
      (nhds (pressureFn γ l r 0)) := (pressureFn_cont_zero hγ hl hr).tendsto.comp hlim
  obtain ⟨n1, hn1⟩ := (hc.eventually (gt_mem_nhds h0)).exists
  obtain ⟨z, hz⟩ := halve_done (le_of_lt hn1)
  obtain ⟨hz0, hz1⟩ := halve_spec hx hz
  obtain ⟨B, hB0, hB⟩ := pressureFn_large hγ hl hr
  have hpos : 0 < eps / pressureFnPrime γ l r z := div_pos he (pressureFnPrime_pos hγ hl hr hz0)
  obtain ⟨n2, hn2⟩ := exists_nat_ge ((B - z) / (eps / pressureFnPrime γ l r z))
  rw [div_le_iff₀ hpos] at hn2
  obtain ⟨y, hy⟩ := newton_done hγ hl hr he hB hz0 hB0 (le_refl z) hz1 (n := n2) (by linarith)
  refine ⟨max n1 n2, y, ?_⟩
  unfold findRoot
  rw [halve_more (le_max_left _ _) hz]
  exact newton_more (le_max_right _ _) hy

end MiniCFD.Exact
