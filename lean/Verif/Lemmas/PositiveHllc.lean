import Verif.Lemmas.Positive
import Verif.Lemmas.Exact

/-! HLLC in the axes of a face. -/

namespace MiniCFD.Positive

open MiniCFD.Euler MiniCFD.Spec.Euler MiniCFD.Spec.Positive MiniCFD.Exact MiniCFD.Spec.Exact

variable {d : Nat}

theorem L_nonneg {γ : ℝ} (hγ : 1 < γ) {s : P3} (h : Good s) {v K : ℝ} (hK : 0 ≤ K) : 0 ≤ L γ v K s :=
  add_nonneg (div_nonneg h.2.le (by linarith))
    (mul_nonneg h.1.le (add_nonneg (div_nonneg (mul_self_nonneg _) two_pos.le) hK))

/-- The pressure does less work than the energy a sound wave carries. -/
theorem work_le {γ : ℝ} (hγ : 1 < γ) {s : P3} (h : Good s) {v K a : ℝ} (hK : 0 ≤ K) (ha0 : 0 ≤ a)
    (ha : γ * s.p ≤ s.rho * (a * a)) : |s.p * (s.u - v)| ≤ a * L γ v K s := by
  have hg : 0 < γ - 1 := by linarith
  have hp := h.2
  have hr := h.1
  have hapos : 0 < a := by
    rcases eq_or_lt_of_le ha0 with e | e
    · exfalso
      have := mul_pos (by linarith : (0 : ℝ) < γ) hp
      rw [← e] at ha
      linarith
    · exact e
  set x := s.u - v with hx
  have h1 : 0 ≤ a * (s.rho * K) := mul_nonneg ha0 (mul_nonneg hr.le hK)
  have h2 : a * L γ v K s = a * (s.p / (γ - 1)) + a * (s.rho * (x * x / 2)) + a * (s.rho * K) := by
    simp only [L, ← hx]; ring
  rw [h2]
  -- p |x| ≤ p² / (2 ρ a) + ρ a x² / 2
  have h3 : s.p / (2 * γ) ≤ s.p / (γ - 1) :=
    div_le_div_of_nonneg_left hp.le hg (by linarith)
  have h4 : |s.p * x| ≤ a * (s.p / (2 * γ)) + a * (s.rho * (x * x / 2)) := by
    have h5 : s.p * s.p ≤ (a * (s.p / γ)) * (a * s.rho) := by
      have : (a * (s.p / γ)) * (a * s.rho) = s.p * (s.rho * (a * a) / γ) := by ring
      rw [this]
      refine mul_le_mul_of_nonneg_left ?_ hp.le
      rw [le_div_iff₀ (by linarith)]
      linarith
    rw [abs_mul, abs_of_pos hp]
    have h6 : x * x = |x| * |x| := (abs_mul_abs_self x).symm
    rw [h6]
    have hA : 0 < a * (s.p / γ) := mul_pos hapos (div_pos hp (by linarith))
    have hB : 0 < a * s.rho := mul_pos hapos hr
    have e1 : a * (s.p / (2 * γ)) + a * (s.rho * (|x| * |x| / 2)) = (a * (s.p / γ) + a * s.rho * (|x| * |x|)) / 2 := by
      field_simp
    rw [e1]
    generalize |x| = y at *
    -- A + B y² ≥ 2 √(A B) y ≥ 2 p y
    nlinarith [sq_nonneg (a * s.rho * y - s.p), mul_pos hA hB]
  have h7 := mul_le_mul_of_nonneg_left h3 ha0
  linarith

/-- The flux of a supersonic gas. -/
theorem Q_nonneg {γ : ℝ} (hγ : 1 < γ) {s : P3} (h : Good s) {v K : ℝ} (hK : 0 ≤ K) (hu0 : 0 ≤ s.u)
    (hu : γ * s.p ≤ s.rho * (s.u * s.u)) : 0 ≤ Q γ v K s := by
  have := work_le hγ h (v := v) hK hu0 hu
  have := neg_abs_le (s.p * (s.u - v))
  simp only [Q]
  linarith

/-- Taking away the flux. -/
theorem holder_cone {γ : ℝ} (hγ : 1 < γ) {s : P3} (h : Good s) {v K α : ℝ} (hK : 0 ≤ K) (h0 : 0 ≤ α + s.u)
    (hu : γ * s.p ≤ s.rho * ((α + s.u) * (α + s.u))) : 0 ≤ α * L γ v K s + Q γ v K s := by
  have := work_le hγ h (v := v) hK h0 hu
  have := neg_abs_le (s.p * (s.u - v))
  simp only [Q]
  linarith

theorem sharer_cone {γ : ℝ} (hγ : 1 < γ) {s : P3} (h : Good s) {v K α : ℝ} (hK : 0 ≤ K) (h0 : 0 ≤ α - s.u)
    (hu : γ * s.p ≤ s.rho * ((α - s.u) * (α - s.u))) : 0 ≤ α * L γ v K s - Q γ v K s := by
  have := work_le hγ h (v := v) hK h0 hu
  have := le_abs_self (s.p * (s.u - v))
  simp only [Q]
  linarith

/-- What is between the waves, for an observer. -/
noncomputable def starL (γ v K : ℝ) (s : P3) (wk ws : ℝ) : ℝ :=
  s.p / ((γ - 1) * s.rho) + (ws - s.u) * (ws - s.u) / 2 + (ws - s.u) * (s.p / (s.rho * (wk - s.u))) +
    ((ws - v) * (ws - v) / 2 + K)

theorem starL_nonneg {γ : ℝ} (hγ : 1 < γ) {s : P3} (h : Good s) {v K wk : ℝ} (ws : ℝ) (hK : 0 ≤ K)
    (hw : γ * s.p ≤ s.rho * ((wk - s.u) * (wk - s.u))) : 0 ≤ starL γ v K s wk ws := by
  have hg : 0 < γ - 1 := by linarith
  have hp := h.2
  have hr := h.1
  set y := s.p / (s.rho * (wk - s.u)) with hy
  have hne : wk - s.u ≠ 0 := by
    intro e
    rw [e] at hw
    have := mul_pos (by linarith : (0 : ℝ) < γ) hp
    linarith
  have h1 : y * y ≤ s.p / (γ * s.rho) := by
    have hq : 0 < (wk - s.u) * (wk - s.u) := mul_self_pos.2 hne
    have : y * y = s.p * s.p / (s.rho * (s.rho * ((wk - s.u) * (wk - s.u)))) := by
      rw [hy]; field_simp
    rw [this, div_le_div_iff₀ (by positivity) (mul_pos (by linarith) hr)]
    have := mul_le_mul_of_nonneg_left hw (mul_pos hp hr).le
    nlinarith
  have h2 : s.p / (2 * γ * s.rho) ≤ s.p / ((γ - 1) * s.rho) :=
    div_le_div_of_nonneg_left hp.le (mul_pos hg hr) (mul_le_mul_of_nonneg_right (by linarith) hr.le)
  have h3 : s.p / (2 * γ * s.rho) = s.p / (γ * s.rho) / 2 := by
    have := hr.ne'
    have : γ ≠ 0 := by linarith
    field_simp
  have h4 := mul_self_nonneg (ws - v)
  have h5 := mul_self_nonneg (ws - s.u + y)
  simp only [starL, ← hy]
  nlinarith

theorem ell_starFlux {γ : ℝ} (hγ : 1 < γ) (v : Fin (d + 1) → ℝ) {s : Tup d} (hm : s.mass ≠ 0) {wk ws : ℝ} :
    ell v (starFlux γ s wk ws) = Q γ (v 0) (across v s) (P3.of s) + wk *
      (s.mass * (wk - s.mom 0) / (wk - ws) * starL γ (v 0) (across v s) (P3.of s) wk ws -
        L γ (v 0) (across v s) (P3.of s)) := by
  simp only [starFlux]
  rw [ell_add, ell_flux, ell_scale, ell_sub, ell_cons]
  congr 3
  generalize s.mass * (wk - s.mom 0) / (wk - ws) = temp
  simp only [ell, starL, P3.of, across_eq]
  have e : ∑ i, (if i = 0 then ws * temp else s.mom i * temp) * v i =
      temp * (ws * v 0 + ∑ i : Fin d, s.mom i.succ * v i.succ) := by
    rw [Fin.sum_univ_succ]
    simp only [if_true, Fin.succ_ne_zero, if_false, mul_add, Finset.mul_sum]
    congr 1
    · ring
    · exact Finset.sum_congr rfl fun i _ => by ring
  rw [e, Fin.sum_univ_succ, Fin.sum_univ_succ (f := fun i => v i * v i)]
  have hg : γ - 1 ≠ 0 := by linarith
  generalize s.energy / (s.mass * (wk - s.mom 0)) = y
  field_simp
  ring

/-- Jump conditions across an outer wave. -/
theorem star_jump {γ : ℝ} (hγ : 1 < γ) {s : P3} (h : Good s) {v K wk ws : ℝ} (hw : wk - s.u ≠ 0) :
    Q γ v K s - wk * L γ v K s =
      -(s.rho * (wk - s.u)) * starL γ v K s wk ws + (s.p + s.rho * (wk - s.u) * (ws - s.u)) * (ws - v) := by
  have hr := h.1.ne'
  have hg : γ - 1 ≠ 0 := by linarith
  simp only [Q, L, starL]
  field_simp
  ring

/-- What the code knows of its waves. -/
structure Waves (γ : ℝ) (l r : P3) (sl sr ws : ℝ) : Prop where
  left : sl < l.u
  right : r.u < sr
  fastLeft : γ * l.p ≤ l.rho * ((sl - l.u) * (sl - l.u))
  fastRight : γ * r.p ≤ r.rho * ((sr - r.u) * (sr - r.u))
  star : l.p + l.rho * (sl - l.u) * (ws - l.u) = r.p + r.rho * (sr - r.u) * (ws - r.u)

/-- A star flux on the left. -/
theorem left_star {γ : ℝ} (hγ : 1 < γ) {l r : P3} (hl : Good l) (hr : Good r) {sl sr ws : ℝ}
    (w : Waves γ l r sl sr ws) (h1 : sl < 0) (h2 : 0 ≤ ws) {α v K K' : ℝ} (hK : 0 ≤ K) (hK' : 0 ≤ K')
    (ha : -sl ≤ α) (hb : sr ≤ α) :
    0 ≤ α * L γ v K l + Q γ v K l - (Q γ v K l + sl * (l.rho * (sl - l.u) / (sl - ws) * starL γ v K l sl ws - L γ v K l)) ∧
    0 ≤ α * L γ v K' r - Q γ v K' r +
      (Q γ v K l + sl * (l.rho * (sl - l.u) / (sl - ws) * starL γ v K l sl ws - L γ v K l)) := by
  have w1 := w.left
  have w2 := w.right
  have hL := L_nonneg hγ hl (v := v) hK
  have hR := L_nonneg hγ hr (v := v) hK'
  have sL := starL_nonneg hγ hl (v := v) ws hK w.fastLeft
  have sR := starL_nonneg hγ hr (v := v) ws hK' w.fastRight
  have hT : 0 < l.rho * (sl - l.u) / (sl - ws) :=
    div_pos_of_neg_of_neg (mul_neg_of_pos_of_neg hl.1 (by linarith)) (by linarith)
  have hTe : l.rho * (sl - l.u) / (sl - ws) * (sl - ws) = l.rho * (sl - l.u) := by
    have : sl - ws ≠ 0 := by linarith
    field_simp
  have hB : 0 < r.rho * (sr - r.u) := mul_pos hr.1 (by linarith)
  have jl := star_jump hγ hl (v := v) (K := K) (wk := sl) (ws := ws) (by linarith)
  have jr := star_jump hγ hr (v := v) (K := K') (wk := sr) (ws := ws) (by linarith)
  have hst := w.star
  generalize l.rho * (sl - l.u) / (sl - ws) = T at *
  constructor
  · have e : α * L γ v K l + Q γ v K l - (Q γ v K l + sl * (T * starL γ v K l sl ws - L γ v K l)) =
        (α + sl) * L γ v K l + -sl * (T * starL γ v K l sl ws) := by ring
    rw [e]
    exact add_nonneg (mul_nonneg (by linarith) hL) (mul_nonneg (by linarith) (mul_nonneg hT.le sL))
  · have e : α * L γ v K' r - Q γ v K' r + (Q γ v K l + sl * (T * starL γ v K l sl ws - L γ v K l)) =
        (α - sr) * L γ v K' r + r.rho * (sr - r.u) * starL γ v K' r sr ws + ws * (T * starL γ v K l sl ws) := by
      linear_combination jl - jr + (ws - v) * hst + starL γ v K l sl ws * hTe
    rw [e]
    exact add_nonneg (add_nonneg (mul_nonneg (by linarith) hR) (mul_nonneg hB.le sR))
      (mul_nonneg h2 (mul_nonneg hT.le sL))

/-- A star flux on the right. -/
theorem right_star {γ : ℝ} (hγ : 1 < γ) {l r : P3} (hl : Good l) (hr : Good r) {sl sr ws : ℝ}
    (w : Waves γ l r sl sr ws) (h1 : 0 < sr) (h2 : ws < 0) {α v K K' : ℝ} (hK : 0 ≤ K) (hK' : 0 ≤ K')
    (ha : -sl ≤ α) (hb : sr ≤ α) :
    0 ≤ α * L γ v K l + Q γ v K l -
      (Q γ v K' r + sr * (r.rho * (sr - r.u) / (sr - ws) * starL γ v K' r sr ws - L γ v K' r)) ∧
    0 ≤ α * L γ v K' r - Q γ v K' r +
      (Q γ v K' r + sr * (r.rho * (sr - r.u) / (sr - ws) * starL γ v K' r sr ws - L γ v K' r)) := by
  have w1 := w.left
  have w2 := w.right
  have hL := L_nonneg hγ hl (v := v) hK
  have hR := L_nonneg hγ hr (v := v) hK'
  have sL := starL_nonneg hγ hl (v := v) ws hK w.fastLeft
  have sR := starL_nonneg hγ hr (v := v) ws hK' w.fastRight
  have hT : 0 < r.rho * (sr - r.u) / (sr - ws) := div_pos (mul_pos hr.1 (by linarith)) (by linarith)
  have hTe : r.rho * (sr - r.u) / (sr - ws) * (sr - ws) = r.rho * (sr - r.u) := by
    have : sr - ws ≠ 0 := by linarith
    field_simp
  have hA : 0 < l.rho * (l.u - sl) := mul_pos hl.1 (by linarith)
  have jl := star_jump hγ hl (v := v) (K := K) (wk := sl) (ws := ws) (by linarith)
  have jr := star_jump hγ hr (v := v) (K := K') (wk := sr) (ws := ws) (by linarith)
  have hst := w.star
  generalize r.rho * (sr - r.u) / (sr - ws) = T at *
  constructor
  · have e : α * L γ v K l + Q γ v K l - (Q γ v K' r + sr * (T * starL γ v K' r sr ws - L γ v K' r)) =
        (α + sl) * L γ v K l + l.rho * (l.u - sl) * starL γ v K l sl ws + -ws * (T * starL γ v K' r sr ws) := by
      linear_combination jl - jr + (ws - v) * hst - starL γ v K' r sr ws * hTe
    rw [e]
    exact add_nonneg (add_nonneg (mul_nonneg (by linarith) hL) (mul_nonneg hA.le sL))
      (mul_nonneg (by linarith) (mul_nonneg hT.le sR))
  · have e : α * L γ v K' r - Q γ v K' r + (Q γ v K' r + sr * (T * starL γ v K' r sr ws - L γ v K' r)) =
        (α - sr) * L γ v K' r + sr * (T * starL γ v K' r sr ws) := by ring
    rw [e]
    exact add_nonneg (mul_nonneg (by linarith) hR) (mul_nonneg h1.le (mul_nonneg hT.le sR))

/-! ### The code -/

theorem sound_eq3 {γ : ℝ} {s : Tup d} (h : AdmissiblePrim s) : speedOfSound γ s = c γ (P3.of s) := by
  have : sound3 γ (P3.of s) = c γ (P3.of s) := sound3_eq h
  rw [← this]; rfl

theorem getQ_ge {γ : ℝ} (hγ : 1 < γ) (pe : ℝ) {pk : ℝ} (hp : 0 < pk) : 1 ≤ getQ γ pe pk := by
  unfold getQ
  split
  · exact le_rfl
  · rename_i hlt
    push Not at hlt
    rw [Real.one_le_sqrt]
    have : 0 < pe / pk - 1 := by rw [sub_pos, lt_div_iff₀ hp]; linarith
    have : 0 < (γ + 1) / 2 * (pe / pk - 1) / γ := div_pos (mul_pos (by linarith) this) (by linarith)
    linarith

theorem fast {γ : ℝ} (hγ : 1 < γ) {s : P3} (h : Good s) {a : ℝ} (ha : c γ s ≤ a) : γ * s.p ≤ s.rho * (a * a) := by
  have h1 := c_pos hγ h
  have h2 := c_sq hγ h
  have h3 : c γ s * c γ s ≤ a * a := mul_self_le_mul_self h1.le ha
  rw [h2, div_le_iff₀ h.1] at h3
  linarith

theorem waves_code {γ : ℝ} (hγ : 1 < γ) {l r : Tup d} (hl : AdmissiblePrim l) (hr : AdmissiblePrim r) :
    Waves γ (P3.of l) (P3.of r) (waveLeft γ l r) (waveRight γ l r)
      (waveStar l r (waveLeft γ l r) (waveRight γ l r)) := by
  have gl : Good (P3.of l) := hl
  have gr : Good (P3.of r) := hr
  have cl := c_pos hγ gl
  have cr := c_pos hγ gr
  have ql := mul_le_mul_of_nonneg_left (getQ_ge hγ (pEstimate γ l r) hl.2) cl.le
  have qr := mul_le_mul_of_nonneg_left (getQ_ge hγ (pEstimate γ l r) hr.2) cr.le
  rw [mul_one] at ql qr
  have el : waveLeft γ l r = l.mom 0 - c γ (P3.of l) * getQ γ (pEstimate γ l r) l.energy := by
    rw [waveLeft, sound_eq3 hl]
  have er : waveRight γ l r = r.mom 0 + c γ (P3.of r) * getQ γ (pEstimate γ l r) r.energy := by
    rw [waveRight, sound_eq3 hr]
  have h1 : waveLeft γ l r < (P3.of l).u := by
    rw [el]; simp only [P3.of] at *; linarith
  have h2 : (P3.of r).u < waveRight γ l r := by
    rw [er]; simp only [P3.of] at *; linarith
  refine ⟨h1, h2, ?_, ?_, ?_⟩
  · have : (waveLeft γ l r - (P3.of l).u) * (waveLeft γ l r - (P3.of l).u) =
        ((P3.of l).u - waveLeft γ l r) * ((P3.of l).u - waveLeft γ l r) := by ring
    rw [this]
    refine fast hγ gl ?_
    rw [el]; simp only [P3.of] at *; linarith
  · refine fast hγ gr ?_
    rw [er]; simp only [P3.of] at *; linarith
  · have hA : l.mass * (waveLeft γ l r - l.mom 0) < 0 := mul_neg_of_pos_of_neg hl.1 (by simp only [P3.of] at h1; linarith)
    have hB : 0 < r.mass * (waveRight γ l r - r.mom 0) := mul_pos hr.1 (by simp only [P3.of] at h2; linarith)
    have hne : l.mass * (waveLeft γ l r - l.mom 0) - r.mass * (waveRight γ l r - r.mom 0) ≠ 0 := by linarith
    have e : waveStar l r (waveLeft γ l r) (waveRight γ l r) *
        (l.mass * (waveLeft γ l r - l.mom 0) - r.mass * (waveRight γ l r - r.mom 0)) =
        r.energy - l.energy + l.mass * l.mom 0 * (waveLeft γ l r - l.mom 0) -
          r.mass * r.mom 0 * (waveRight γ l r - r.mom 0) := by
      rw [waveStar, div_mul_cancel₀ _ hne]
    simp only [P3.of]
    linear_combination e

/-- HLLC in the axes of the face. -/
theorem hllc_cone {γ : ℝ} (hγ : 1 < γ) {l r : Tup d} (hl : AdmissiblePrim l) (hr : AdmissiblePrim r) {α : ℝ}
    (h0 : 0 ≤ α) (ha : -waveLeft γ l r ≤ α) (hb : waveRight γ l r ≤ α) :
    Cone (Tup.sub (Tup.add (Tup.scale α (toCons γ l)) (primFlux γ l)) (hllc γ l r)) ∧
    Cone (Tup.add (Tup.sub (Tup.scale α (toCons γ r)) (primFlux γ r)) (hllc γ l r)) := by
  have gl : Good (P3.of l) := hl
  have gr : Good (P3.of r) := hr
  have w := waves_code hγ hl hr
  have key : ∀ v, 0 ≤ ell v (Tup.sub (Tup.add (Tup.scale α (toCons γ l)) (primFlux γ l)) (hllc γ l r)) ∧
      0 ≤ ell v (Tup.add (Tup.sub (Tup.scale α (toCons γ r)) (primFlux γ r)) (hllc γ l r)) := by
    intro v
    simp only [ell_sub, ell_add, ell_scale, ell_cons, ell_flux]
    have hK := across_nonneg v l
    have hK' := across_nonneg v r
    have hL := L_nonneg hγ gl (v := v 0) hK
    have hR := L_nonneg hγ gr (v := v 0) hK'
    have w1 := w.left
    have w2 := w.right
    have f1 := w.fastLeft
    have f2 := w.fastRight
    unfold hllc
    dsimp only
    by_cases c1 : 0 ≤ waveLeft γ l r
    · rw [if_pos c1, ell_flux]
      constructor
      · have := mul_nonneg h0 hL
        linarith
      · refine add_nonneg (sharer_cone hγ gr hK' (by linarith) (f2.trans ?_)) (Q_nonneg hγ gl hK (by linarith) (f1.trans ?_))
        · refine mul_le_mul_of_nonneg_left ?_ gr.1.le
          exact mul_self_le_mul_self (by linarith) (by linarith)
        · refine mul_le_mul_of_nonneg_left ?_ gl.1.le
          have : (waveLeft γ l r - (P3.of l).u) * (waveLeft γ l r - (P3.of l).u) =
            ((P3.of l).u - waveLeft γ l r) * ((P3.of l).u - waveLeft γ l r) := by ring
          rw [this]
          exact mul_self_le_mul_self (by linarith) (by linarith)
    · rw [if_neg c1]
      push Not at c1
      by_cases c2 : waveRight γ l r ≤ 0
      · rw [if_pos c2, ell_flux]
        constructor
        · have h1 : 0 ≤ α * L γ (v 0) (across v l) (P3.of l) + Q γ (v 0) (across v l) (P3.of l) := by
            refine holder_cone hγ gl hK (by linarith) (f1.trans ?_)
            refine mul_le_mul_of_nonneg_left ?_ gl.1.le
            have : (waveLeft γ l r - (P3.of l).u) * (waveLeft γ l r - (P3.of l).u) =
              ((P3.of l).u - waveLeft γ l r) * ((P3.of l).u - waveLeft γ l r) := by ring
            rw [this]
            exact mul_self_le_mul_self (by linarith) (by linarith)
          have h2 : 0 ≤ 0 * L γ (v 0) (across v r) (P3.of r) - Q γ (v 0) (across v r) (P3.of r) := by
            refine sharer_cone hγ gr hK' (by linarith) (f2.trans ?_)
            refine mul_le_mul_of_nonneg_left ?_ gr.1.le
            exact mul_self_le_mul_self (by linarith) (by linarith)
          linarith
        · have := mul_nonneg h0 hR
          linarith
      · rw [if_neg c2]
        push Not at c2
        by_cases c3 : 0 ≤ waveStar l r (waveLeft γ l r) (waveRight γ l r)
        · rw [if_pos c3, ell_starFlux hγ v hl.1.ne']
          exact left_star hγ gl gr w c1 c3 hK hK' ha hb
        · rw [if_neg c3, ell_starFlux hγ v hr.1.ne']
          push Not at c3
          exact right_star hγ gl gr w c2 c3 hK hK' ha hb
  exact ⟨fun v => (key v).1, fun v => (key v).2⟩

end MiniCFD.Positive
