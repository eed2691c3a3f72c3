import Verif.Spec.Simple
import Mathlib.Tactic.Linarith
import Mathlib.Tactic.LinearCombination
import Mathlib.Tactic.FieldSimp
import Mathlib.Tactic.Ring

namespace MiniCFD.Simple
open MiniCFD.Spec.Simple

/-! ### Burgers -/

theorem burgers_le {k u v : ℝ} (h : 0 ≤ k * ((v - u) * (v + u))) :
    burgersFlux k u ≤ burgersFlux k v := by
  unfold burgersFlux; nlinarith

theorem burgers_expanding (k l r : ℝ) (h : l ≤ r) :
    IsLeast (burgersFlux k '' Set.Icc l r) (burgersUpwind k l r) := by
  unfold burgersUpwind
  by_cases hk : k = 0
  · subst hk
    rw [if_pos rfl]
    refine ⟨⟨l, ⟨le_refl _, h⟩, by simp [burgersFlux]⟩, ?_⟩
    rintro _ ⟨u, _, rfl⟩
    simp [burgersFlux]
  · rw [if_neg hk]
    simp only
    rcases lt_or_gt_of_ne hk with hk | hk
    · have hge : k * l ≥ k * r := by nlinarith
      rw [if_pos hge, if_pos hge]
      split
      · rename_i h0
        have hs : l + r ≤ 0 := by nlinarith
        refine ⟨⟨l, ⟨le_refl _, h⟩, rfl⟩, ?_⟩
        rintro _ ⟨u, ⟨h1, h2⟩, rfl⟩
        apply burgers_le
        exact mul_nonneg_of_nonpos_of_nonpos hk.le
          (mul_nonpos_of_nonneg_of_nonpos (by linarith) (by linarith))
      · rename_i h0
        rw [if_pos (by linarith)]
        have hs : 0 ≤ l + r := by nlinarith
        refine ⟨⟨r, ⟨h, le_refl _⟩, rfl⟩, ?_⟩
        rintro _ ⟨u, ⟨h1, h2⟩, rfl⟩
        apply burgers_le
        exact mul_nonneg_of_nonpos_of_nonpos hk.le
          (mul_nonpos_of_nonpos_of_nonneg (by linarith) (by linarith))
    · by_cases hge : k * l ≥ k * r
      · have e : l = r := le_antisymm h (le_of_mul_le_mul_left hge hk)
        subst e
        simp only [if_pos hge]
        have key : ∀ f, f = burgersFlux k l → IsLeast (burgersFlux k '' Set.Icc l l) f := by
          rintro f rfl
          refine ⟨⟨l, ⟨le_refl _, le_refl _⟩, rfl⟩, ?_⟩
          rintro _ ⟨u, ⟨h1, h2⟩, rfl⟩
          rw [le_antisymm h1 h2]
        split
        · exact key _ rfl
        · rename_i h0
          rw [if_pos (by linarith)]
          exact key _ rfl
      · rw [if_neg hge, if_neg hge]
        split
        · rename_i h0
          have h0' : 0 ≤ l := by
            by_contra hn; push Not at hn; nlinarith
          refine ⟨⟨l, ⟨le_refl _, h⟩, rfl⟩, ?_⟩
          rintro _ ⟨u, ⟨h1, h2⟩, rfl⟩
          apply burgers_le
          exact mul_nonneg hk.le (mul_nonneg (by linarith) (by linarith))
        · rename_i h0
          split
          · rename_i h3
            have h3' : r ≤ 0 := by
              by_contra hn; push Not at hn; nlinarith
            refine ⟨⟨r, ⟨h, le_refl _⟩, rfl⟩, ?_⟩
            rintro _ ⟨u, ⟨h1, h2⟩, rfl⟩
            apply burgers_le
            exact mul_nonneg hk.le (mul_nonneg_of_nonpos_of_nonpos (by linarith) (by linarith))
          · rename_i h3
            rw [zero_div]
            have hl : l ≤ 0 := by
              by_contra hn; push Not at hn
              exact h0 (mul_nonneg hk.le hn.le)
            have hr : 0 ≤ r := by
              by_contra hn; push Not at hn
              exact h3 (mul_nonpos_of_nonneg_of_nonpos hk.le hn.le)
            refine ⟨⟨0, ⟨hl, hr⟩, rfl⟩, ?_⟩
            rintro _ ⟨u, ⟨h1, h2⟩, rfl⟩
            apply burgers_le
            have := mul_nonneg hk.le (mul_self_nonneg u)
            simpa using this

/-- Reversing the sign of `k` reverses fluxes. -/
theorem burgersFlux_neg (k u : ℝ) : burgersFlux (-k) u = -burgersFlux k u := by
  unfold burgersFlux; ring

/-- Mirroring the axis. -/
theorem burgersUpwind_mirror (k l r : ℝ) : burgersUpwind (-k) r l = -burgersUpwind k l r := by
  unfold burgersUpwind
  by_cases hk : k = 0
  · subst hk; simp
  · rw [if_neg hk, if_neg (neg_ne_zero.2 hk)]
    simp only [burgersFlux_neg]
    have e0 : burgersFlux k (0 / -k) = burgersFlux k (0 / k) := by simp
    rw [e0]
    by_cases hge : k * l ≥ k * r
    · have hge' : -k * r ≥ -k * l := by linarith
      rw [if_pos hge, if_pos hge, if_pos hge', if_pos hge']
      have em : (-k * r + -k * l) / 2 = -((k * l + k * r) / 2) := by ring
      rw [em]
      by_cases h1 : 0 ≤ (k * l + k * r) / 2
      · rw [if_pos h1]
        by_cases h2 : (k * l + k * r) / 2 = 0
        · rw [if_pos (by rw [h2]; simp)]
          have : k * l = -(k * r) := by linarith
          have e : l = -r := mul_left_cancel₀ hk (by rw [this]; ring)
          subst e; unfold burgersFlux; ring
        · have : 0 < (k * l + k * r) / 2 := lt_of_le_of_ne h1 (Ne.symm h2)
          rw [if_neg (by linarith), if_pos (by linarith)]
      · rw [if_neg h1, if_pos (by linarith), if_pos (by linarith)]
    · have hge' : ¬ -k * r ≥ -k * l := by intro h; exact hge (by linarith)
      rw [if_neg hge, if_neg hge, if_neg hge', if_neg hge']
      push Not at hge
      by_cases h1 : 0 ≤ k * l
      · rw [if_pos h1]
        by_cases h2 : k * l = 0
        · have hl : l = 0 := by simpa [hk] using h2
          subst hl
          rw [if_neg (by nlinarith), if_pos (by simp)]
        · have h3 : 0 < k * l := lt_of_le_of_ne h1 (Ne.symm h2)
          rw [if_neg (by linarith), if_pos (by linarith)]
      · rw [if_neg h1]
        push Not at h1
        by_cases h2 : 0 ≥ k * r
        · rw [if_pos h2, if_pos (by linarith)]
        · rw [if_neg h2, if_neg (by intro h; exact h2 (by linarith)),
            if_neg (by intro h; linarith)]

/-! ### Double -/

theorem delta_nonneg (m : M2) : 0 ≤ delta m := Real.sqrt_nonneg _

theorem delta_sq {m : M2} (h : 0 ≤ (m.a + m.d) * (m.a + m.d) - 4 * (m.a * m.d - m.b * m.c)) :
    delta m * delta m = (m.a + m.d) * (m.a + m.d) - 4 * (m.a * m.d - m.b * m.c) :=
  Real.mul_self_sqrt h

/-- Both eigenvalues are roots of the characteristic polynomial. -/
theorem char0 {m : M2} (h : 0 ≤ (m.a + m.d) * (m.a + m.d) - 4 * (m.a * m.d - m.b * m.c)) :
    (m.a - eig0 m) * (m.d - eig0 m) = m.b * m.c := by
  have := delta_sq h
  unfold eig0; linear_combination this / 4

theorem char1 {m : M2} (h : 0 ≤ (m.a + m.d) * (m.a + m.d) - 4 * (m.a * m.d - m.b * m.c)) :
    (m.a - eig1 m) * (m.d - eig1 m) = m.b * m.c := by
  have := delta_sq h
  unfold eig1; linear_combination this / 4

theorem eig_le (m : M2) : eig0 m ≤ eig1 m := by
  have := delta_nonneg m; unfold eig0 eig1; linarith

/-- The speed of a nonzero wave is an eigenvalue. -/
theorem wave_speed {m : M2} {s : ℝ} {w : V2} (hw : Wave2 m s w) (hn : ¬ (w.x = 0 ∧ w.y = 0)) :
    (m.a - s) * (m.d - s) = m.b * m.c := by
  unfold Wave2 M2.app at hw
  simp only [V2.mk.injEq] at hw
  obtain ⟨h1, h2⟩ := hw
  have e1 : ((m.a - s) * (m.d - s) - m.b * m.c) * w.x = 0 := by
    linear_combination (m.d - s) * h1 - m.b * h2
  have e2 : ((m.a - s) * (m.d - s) - m.b * m.c) * w.y = 0 := by
    linear_combination (m.a - s) * h2 - m.c * h1
  rcases mul_eq_zero.1 e1 with h | h
  · linarith
  · rcases mul_eq_zero.1 e2 with h' | h'
    · linarith
    · exact absurd ⟨h, h'⟩ hn

theorem speed_cases {m : M2} (h : 0 ≤ (m.a + m.d) * (m.a + m.d) - 4 * (m.a * m.d - m.b * m.c))
    {s : ℝ} (hs : (m.a - s) * (m.d - s) = m.b * m.c) : s = eig0 m ∨ s = eig1 m := by
  have e : (s - eig0 m) * (s - eig1 m) = 0 := by
    have := delta_sq h
    unfold eig0 eig1
    linear_combination hs - this / 4
  rcases mul_eq_zero.1 e with h | h
  · exact Or.inl (by linarith)
  · exact Or.inr (by linarith)

theorem eigenColumn_wave {m : M2} {e : ℝ} (he : (m.a - e) * (m.d - e) = m.b * m.c) :
    Wave2 m e (eigenColumn m e) := by
  unfold Wave2 M2.app eigenColumn
  split
  · rename_i h
    obtain ⟨h1, h2⟩ := h
    simp only [V2.mk.injEq]
    constructor
    · linear_combination (m.d - e) * h1 - m.c * h2
    · ring
  · simp only [V2.mk.injEq]
    constructor
    · ring
    · linear_combination -he

theorem eigenColumn_ne {m : M2} {e e' : ℝ} (he : (m.a - e) * (m.d - e) = m.b * m.c)
    (he' : (m.a - e') * (m.d - e') = m.b * m.c) (hne : e ≠ e') :
    ¬ ((eigenColumn m e).x = 0 ∧ (eigenColumn m e).y = 0) := by
  unfold eigenColumn
  split
  · rename_i h
    rintro ⟨h1, h2⟩
    simp only at h1 h2
    obtain ⟨h3, h4⟩ := h
    apply hne
    have h5 : (m.a - e') * (m.d - e') = 0 := by rw [he', h4]; ring
    rcases mul_eq_zero.1 h5 with h | h <;> linarith
  · rename_i h
    rintro ⟨h1, h2⟩
    simp only at h1 h2
    exact h ⟨by linarith, h1⟩

/-- Determinant of two eigenvector columns of different eigenvalues. -/
theorem det_ne_zero {m : M2} {e0 e1 : ℝ} {v w : V2} (hv : Wave2 m e0 v) (hw : Wave2 m e1 w)
    (hne : e0 ≠ e1) (hv0 : ¬ (v.x = 0 ∧ v.y = 0)) (hw0 : ¬ (w.x = 0 ∧ w.y = 0)) :
    v.x * w.y - w.x * v.y ≠ 0 := by
  intro hd
  unfold Wave2 M2.app at hv hw
  simp only [V2.mk.injEq] at hv hw
  obtain ⟨hv1, hv2⟩ := hv
  obtain ⟨hw1, hw2⟩ := hw
  -- v and w are parallel, so both eigenvalues agree
  have k1 : (e0 - e1) * (v.x * w.x) = 0 := by
    linear_combination (-w.x) * hv1 + v.x * hw1 - m.b * hd
  have k2 : (e0 - e1) * (v.y * w.y) = 0 := by
    linear_combination (-w.y) * hv2 + v.y * hw2 + m.c * hd
  have k3 : (e0 - e1) * (v.x * w.y) = 0 := by
    linear_combination (-w.y) * hv1 + v.y * hw1 + (m.a - e1) * hd
  have k4 : (e0 - e1) * (v.y * w.x) = 0 := by
    linear_combination (-w.x) * hv2 + v.x * hw2 - (m.d - e1) * hd
  have hz : e0 - e1 ≠ 0 := sub_ne_zero.2 hne
  have a1 := (mul_eq_zero.1 k1).resolve_left hz
  have a2 := (mul_eq_zero.1 k2).resolve_left hz
  have a3 := (mul_eq_zero.1 k3).resolve_left hz
  have a4 := (mul_eq_zero.1 k4).resolve_left hz
  rcases mul_eq_zero.1 a1 with h | h
  · have hy : v.y ≠ 0 := fun hy => hv0 ⟨h, hy⟩
    exact hw0 ⟨(mul_eq_zero.1 a4).resolve_left hy, (mul_eq_zero.1 a2).resolve_left hy⟩
  · by_cases hx : v.x = 0
    · have hy : v.y ≠ 0 := fun hy => hv0 ⟨hx, hy⟩
      exact hw0 ⟨h, (mul_eq_zero.1 a2).resolve_left hy⟩
    · exact hw0 ⟨h, (mul_eq_zero.1 a3).resolve_left hx⟩

theorem disc_of_hyperbolic {m : M2} (h : Hyperbolic m) :
    0 ≤ (m.a + m.d) * (m.a + m.d) - 4 * (m.a * m.d - m.b * m.c) := by
  unfold Hyperbolic at h; linarith

/-- The part of the flux carried by the jump. -/
noncomputable def jumpFlux (m : M2) (w : V2) : V2 :=
  if 0 ≤ eig0 m then ⟨0, 0⟩
  else if 0 ≥ eig1 m then m.app w
  else
    let r := eigenR m
    let l := inverse2 r
    let t0 := (l.a * w.x + l.b * w.y) * eig0 m
    ⟨t0 * r.a, t0 * r.c⟩

theorem eigenR_det {m : M2} (h : Hyperbolic m) (hne : eig0 m ≠ eig1 m) :
    (eigenR m).a * (eigenR m).d - (eigenR m).b * (eigenR m).c ≠ 0 := by
  have hd := disc_of_hyperbolic h
  exact det_ne_zero (eigenColumn_wave (char0 hd)) (eigenColumn_wave (char1 hd)) hne
    (eigenColumn_ne (char0 hd) (char1 hd) hne) (eigenColumn_ne (char1 hd) (char0 hd) hne.symm)

theorem spectral {m : M2} {e0 e1 : ℝ} {r : M2} (h0 : Wave2 m e0 ⟨r.a, r.c⟩)
    (h1 : Wave2 m e1 ⟨r.b, r.d⟩) (hdet : r.a * r.d - r.b * r.c ≠ 0) (v : V2) :
    m.app v =
      ⟨((inverse2 r).a * v.x + (inverse2 r).b * v.y) * e0 * r.a +
          ((inverse2 r).c * v.x + (inverse2 r).d * v.y) * e1 * r.b,
       ((inverse2 r).a * v.x + (inverse2 r).b * v.y) * e0 * r.c +
          ((inverse2 r).c * v.x + (inverse2 r).d * v.y) * e1 * r.d⟩ := by
  unfold Wave2 M2.app at h0 h1
  simp only [V2.mk.injEq] at h0 h1
  obtain ⟨a1, a2⟩ := h0
  obtain ⟨b1, b2⟩ := h1
  unfold M2.app inverse2
  simp only [V2.mk.injEq]
  generalize hD : r.a * r.d - r.b * r.c = D at hdet
  constructor
  · field_simp
    linear_combination (r.d * v.x - r.b * v.y) * a1 + (-r.c * v.x + r.a * v.y) * b1 -
      (m.a * v.x + m.b * v.y) * hD
  · field_simp
    linear_combination (r.d * v.x - r.b * v.y) * a2 + (-r.c * v.x + r.a * v.y) * b2 -
      (m.c * v.x + m.d * v.y) * hD

theorem eigenR_waves {m : M2} (h : Hyperbolic m) :
    Wave2 m (eig0 m) ⟨(eigenR m).a, (eigenR m).c⟩ ∧ Wave2 m (eig1 m) ⟨(eigenR m).b, (eigenR m).d⟩ :=
  ⟨eigenColumn_wave (char0 (disc_of_hyperbolic h)), eigenColumn_wave (char1 (disc_of_hyperbolic h))⟩

theorem double_split {m : M2} (h : Hyperbolic m) (left w : V2) :
    doubleUpwind m left (V2.add left w) = V2.add (m.app left) (jumpFlux m w) := by
  unfold doubleUpwind jumpFlux
  by_cases h0 : 0 ≤ eig0 m
  · simp only [if_pos h0]
    simp [V2.add]
  · simp only [if_neg h0]
    by_cases h1 : 0 ≥ eig1 m
    · simp only [if_pos h1]
      simp only [M2.app, V2.add, V2.mk.injEq]
      constructor <;> ring
    · simp only [if_neg h1]
      have hne : eig0 m ≠ eig1 m := by
        intro e; rw [e] at h0; exact h1 (by linarith)
      obtain ⟨w0, w1⟩ := eigenR_waves h
      rw [spectral w0 w1 (eigenR_det h hne) left]
      unfold insideSector
      simp only [V2.add, V2.mk.injEq]
      constructor <;> ring

theorem jumpFlux_add (m : M2) (v w : V2) :
    jumpFlux m (V2.add v w) = V2.add (jumpFlux m v) (jumpFlux m w) := by
  unfold jumpFlux
  split
  · simp [V2.add]
  · split
    · simp only [M2.app, V2.add, V2.mk.injEq]
      constructor <;> ring
    · simp only [V2.add, V2.mk.injEq]
      constructor <;> ring

theorem jumpFlux_zero (m : M2) : jumpFlux m ⟨0, 0⟩ = ⟨0, 0⟩ := by
  unfold jumpFlux
  split
  · rfl
  · split
    · simp [M2.app]
    · simp

theorem jumpFlux_wave {m : M2} (h : Hyperbolic m) {s : ℝ} {w : V2} (hw : Wave2 m s w) :
    jumpFlux m w = if s < 0 then m.app w else ⟨0, 0⟩ := by
  have hd := disc_of_hyperbolic h
  by_cases hz : w.x = 0 ∧ w.y = 0
  · have : w = ⟨0, 0⟩ := V2.ext hz.1 hz.2
    subst this
    rw [jumpFlux_zero]
    simp [M2.app]
  · have hs := speed_cases hd (wave_speed hw hz)
    have hle := eig_le m
    unfold jumpFlux
    by_cases h0 : 0 ≤ eig0 m
    · rw [if_pos h0, if_neg (by rcases hs with h | h <;> linarith)]
    · rw [if_neg h0]
      push Not at h0
      by_cases h1 : 0 ≥ eig1 m
      · rw [if_pos h1]
        split
        · rfl
        · rename_i hn
          have hs0 : s = 0 := by
            rcases hs with h | h
            · linarith
            · linarith
          unfold Wave2 at hw
          rw [hw, hs0]; simp
      · rw [if_neg h1]
        push Not at h1
        have hne : eig0 m ≠ eig1 m := by linarith
        have hdet := eigenR_det h hne
        obtain ⟨w0, w1⟩ := eigenR_waves h
        generalize eigenR m = r at *
        unfold Wave2 M2.app at w0 w1 hw
        simp only [V2.mk.injEq] at w0 w1 hw
        obtain ⟨a1, a2⟩ := w0
        obtain ⟨b1, b2⟩ := w1
        obtain ⟨c1, c2⟩ := hw
        rcases hs with hs | hs
        · rw [if_pos (by linarith)]
          -- `w` has no component along the second column
          have kx : (-r.c * w.x + r.a * w.y) = 0 := by
            by_contra hk
            -- both `w` and the first column belong to `eig0`, and are independent: then A = eig0
            have q1 : m.a = eig0 m := by
              have : (m.a - eig0 m) * (-r.c * w.x + r.a * w.y) = 0 := by
                rw [hs] at c1
                linear_combination w.y * a1 - r.c * c1
              rcases mul_eq_zero.1 this with h | h
              · linarith
              · exact absurd h hk
            have q2 : m.d = eig0 m := by
              have : (m.d - eig0 m) * (-r.c * w.x + r.a * w.y) = 0 := by
                rw [hs] at c2
                linear_combination (-w.x) * a2 + r.a * c2
              rcases mul_eq_zero.1 this with h | h
              · linarith
              · exact absurd h hk
            have : eig0 m + eig1 m = m.a + m.d := by unfold eig0 eig1; ring
            exact hne (by linarith)
          rw [hs] at c1 c2
          unfold M2.app inverse2
          simp only [V2.mk.injEq]
          rw [c1, c2]
          generalize hD : r.a * r.d - r.b * r.c = D at hdet
          constructor
          · field_simp
            linear_combination (eig0 m * w.x) * hD - eig0 m * r.b * kx
          · field_simp
            linear_combination (eig0 m * w.y) * hD - eig0 m * r.d * kx
        · rw [if_neg (by linarith)]
          have kx : (r.d * w.x - r.b * w.y) = 0 := by
            by_contra hk
            have q1 : m.a = eig1 m := by
              have : (m.a - eig1 m) * (r.d * w.x - r.b * w.y) = 0 := by
                rw [hs] at c1
                linear_combination r.d * c1 - w.y * b1
              rcases mul_eq_zero.1 this with h | h
              · linarith
              · exact absurd h hk
            have q2 : m.d = eig1 m := by
              have : (m.d - eig1 m) * (r.d * w.x - r.b * w.y) = 0 := by
                rw [hs] at c2
                linear_combination w.x * b2 - r.b * c2
              rcases mul_eq_zero.1 this with h | h
              · linarith
              · exact absurd h hk
            have : eig0 m + eig1 m = m.a + m.d := by unfold eig0 eig1; ring
            exact hne (by linarith)
          unfold inverse2
          simp only [V2.mk.injEq]
          have e : r.d / (r.a * r.d - r.b * r.c) * w.x + -r.b / (r.a * r.d - r.b * r.c) * w.y = 0 := by
            rw [div_mul_eq_mul_div, div_mul_eq_mul_div, ← add_div, neg_mul, ← sub_eq_add_neg, kx,
              zero_div]
          rw [e]; simp

theorem app_add (m : M2) (v w : V2) : m.app (V2.add v w) = V2.add (m.app v) (m.app w) := by
  simp only [M2.app, V2.add, V2.mk.injEq]
  constructor <;> ring

theorem app_zero (m : M2) : m.app ⟨0, 0⟩ = ⟨0, 0⟩ := by simp [M2.app]

theorem jumpFlux_sum {m : M2} (h : Hyperbolic m) (ws : List (ℝ × V2))
    (hw : ∀ p ∈ ws, Wave2 m p.1 p.2) :
    jumpFlux m (V2.sum (ws.map (·.2))) =
      m.app (V2.sum ((ws.filter fun p => p.1 < 0).map (·.2))) := by
  induction ws with
  | nil => simp only [List.map_nil, List.filter_nil, V2.sum, List.foldr_nil, jumpFlux_zero, app_zero]
  | cons p ws ih =>
    have ih := ih fun q hq => hw q (List.mem_cons_of_mem _ hq)
    have hp := jumpFlux_wave h (hw p List.mem_cons_self)
    simp only [List.map_cons, V2.sum, List.foldr_cons] at ih ⊢
    rw [jumpFlux_add, ih, hp]
    by_cases hs : p.1 < 0
    · rw [if_pos hs, List.filter_cons, if_pos (decide_eq_true hs)]
      simp only [List.map_cons, List.foldr_cons]
      rw [app_add]
    · rw [if_neg hs, List.filter_cons, if_neg (by simpa using hs)]
      simp [V2.add]

/-! ### Multiple -/

open Matrix in
theorem decomposed_sum {K : Nat} {A rows cols : Matrix (Fin K) (Fin K) ℝ} {vals : Fin K → ℝ}
    (h : Decomposed A rows cols vals) (v : Fin K → ℝ) :
    ∑ k, (cols k ⬝ᵥ v) • (fun i => rows i k) = v := by
  have e : rows * cols = 1 := mul_eq_one_comm.1 h.left_inv
  have : rows *ᵥ (cols *ᵥ v) = v := by rw [mulVec_mulVec, e, one_mulVec]
  funext i
  conv_rhs => rw [← this]
  simp only [Finset.sum_apply, Pi.smul_apply, smul_eq_mul]
  simp only [mulVec, dotProduct]
  exact Finset.sum_congr rfl fun k _ => mul_comm _ _

open Matrix in
/-- Rows of `cols` are left eigenvectors. -/
theorem decomposed_left {K : Nat} {A rows cols : Matrix (Fin K) (Fin K) ℝ} {vals : Fin K → ℝ}
    (h : Decomposed A rows cols vals) (k : Fin K) (v : Fin K → ℝ) :
    cols k ⬝ᵥ (A *ᵥ v) = vals k * (cols k ⬝ᵥ v) := by
  have hr : ∀ j, cols k ⬝ᵥ (fun i => rows i j) = if k = j then 1 else 0 := by
    intro j
    have := congrFun (congrFun h.left_inv k) j
    rw [mul_apply, one_apply] at this
    exact this
  conv_lhs => rw [← decomposed_sum h v]
  rw [mulVec_sum]
  simp only [mulVec_smul, h.eigen, dotProduct_sum, dotProduct_smul, hr, smul_eq_mul]
  rw [Finset.sum_eq_single k]
  · simp; ring
  · intro b _ hb; simp [Ne.symm hb]
  · intro h; exact absurd (Finset.mem_univ _) h

open Matrix in
theorem wave_component {K : Nat} {A rows cols : Matrix (Fin K) (Fin K) ℝ} {vals : Fin K → ℝ}
    (h : Decomposed A rows cols vals) {s : ℝ} {w : Fin K → ℝ} (hw : Wave A s w) (k : Fin K) :
    cols k ⬝ᵥ w = 0 ∨ vals k = s := by
  have e := decomposed_left h k w
  unfold Wave at hw
  rw [hw, dotProduct_smul, smul_eq_mul] at e
  by_cases hz : cols k ⬝ᵥ w = 0
  · exact Or.inl hz
  · exact Or.inr (mul_right_cancel₀ hz e).symm

open Matrix in
theorem multiple_split {K : Nat} {A rows cols : Matrix (Fin K) (Fin K) ℝ} {vals : Fin K → ℝ}
    (h : Decomposed A rows cols vals) (left w : Fin K → ℝ) :
    multipleUpwind rows cols vals left (left + w) =
      A *ᵥ left + ∑ k, (min (vals k) 0 * (cols k ⬝ᵥ w)) • fun i => rows i k := by
  conv_rhs => rw [← decomposed_sum h (A *ᵥ left)]
  rw [← Finset.sum_add_distrib]
  unfold multipleUpwind
  refine Finset.sum_congr rfl fun k _ => ?_
  rw [decomposed_left h, ← add_smul]
  congr 1
  split
  · rename_i hk
    rw [min_eq_right hk.le]; ring
  · rename_i hk
    rw [min_eq_left (not_lt.1 hk), dotProduct_add]; ring

open Matrix in
theorem multiple_wave {K : Nat} {A rows cols : Matrix (Fin K) (Fin K) ℝ} {vals : Fin K → ℝ}
    (h : Decomposed A rows cols vals) {s : ℝ} {w : Fin K → ℝ} (hw : Wave A s w) :
    ∑ k, (min (vals k) 0 * (cols k ⬝ᵥ w)) • (fun i => rows i k) = min s 0 • w := by
  conv_rhs => rw [← decomposed_sum h w, Finset.smul_sum]
  refine Finset.sum_congr rfl fun k _ => ?_
  rw [smul_smul]
  congr 1
  rcases wave_component h hw k with e | e
  · rw [e]; ring
  · rw [e]

end MiniCFD.Simple
