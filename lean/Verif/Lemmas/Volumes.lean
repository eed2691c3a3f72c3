import Verif.Spec.Volumes
import Verif.Lemmas.EnergyLinear
import Verif.Lemmas.Simple
import Mathlib.Tactic.Linarith
import Mathlib.Tactic.Positivity
import Mathlib.Algebra.Order.BigOperators.Group.List

/-! Monotone fluxes on a mesh. -/

namespace MiniCFD.Volumes

open MiniCFD.Energy MiniCFD.Spec.Energy MiniCFD.Spec.Volumes MiniCFD.Residual MiniCFD.Projection MiniCFD.Ortho

/-! ### Fluxes -/

theorem burgers_formula {k : ℝ} (hk : 0 < k) (l r : ℝ) :
    Simple.burgersUpwind k l r = k * max (max l 0 ^ 2) (min r 0 ^ 2) / 2 := by
  have p1 : ∀ x : ℝ, k * x ≥ 0 ↔ 0 ≤ x := fun x => by
    constructor
    · intro h; by_contra hx; have := mul_neg_of_pos_of_neg hk (not_le.1 hx); linarith
    · intro h; exact mul_nonneg hk.le h
  have p2 : ∀ x y : ℝ, k * x ≥ k * y ↔ y ≤ x := fun x y => mul_le_mul_iff_right₀ hk
  have p3 : (k * l + k * r) / 2 = k * ((l + r) / 2) := by ring
  have p4 : ∀ x : ℝ, 0 ≥ k * x ↔ x ≤ 0 := fun x => by
    constructor
    · intro h; by_contra hx; have := mul_pos hk (not_le.1 hx); linarith
    · intro h; exact mul_nonpos_of_nonneg_of_nonpos hk.le h
  simp only [Simple.burgersUpwind, hk.ne', if_false, p2, p3, Simple.burgersFlux, zero_div]
  by_cases h : r ≤ l
  · simp only [h, if_true]
    by_cases h0 : 0 ≤ (l + r) / 2
    · rw [if_pos ((p1 _).2 h0)]
      have hl : 0 ≤ l := by linarith
      rw [max_eq_left hl, max_eq_left]
      · ring
      · rcases le_total r 0 with h1 | h1
        · rw [min_eq_left h1]; nlinarith
        · rw [min_eq_right h1]; nlinarith
    · have h0' : (l + r) / 2 ≤ 0 := (not_le.1 h0).le
      rw [if_neg (fun hc => h0 ((p1 _).1 hc)), if_pos ((p4 _).2 h0')]
      have hr : r ≤ 0 := by linarith [not_le.1 h0]
      rw [min_eq_left hr, max_eq_right]
      · ring
      · rcases le_total l 0 with h1 | h1
        · rw [max_eq_right h1]; nlinarith
        · rw [max_eq_left h1]; nlinarith
  · simp only [h, if_false]
    have h' := not_le.1 h
    by_cases h0 : 0 ≤ l
    · rw [if_pos ((p1 _).2 h0), max_eq_left h0, min_eq_right (by linarith), max_eq_left (by nlinarith)]
      ring
    · have h0' := not_le.1 h0
      rw [if_neg (fun hc => h0 ((p1 _).1 hc)), max_eq_right h0'.le]
      by_cases h1 : r ≤ 0
      · rw [if_pos ((p4 _).2 h1), min_eq_left h1, max_eq_right (by nlinarith)]
        ring
      · rw [if_neg (fun hc => h1 ((p4 _).1 hc)), min_eq_right (not_le.1 h1).le]
        simp

theorem max_step {M l l' y : ℝ} (h : l ≤ l') (hl : l ≤ M) (hl' : l' ≤ M) (hM : 0 ≤ M) :
    max (max l 0 ^ 2) y ≤ max (max l' 0 ^ 2) y ∧
      max (max l' 0 ^ 2) y - max (max l 0 ^ 2) y ≤ 2 * M * (l' - l) := by
  have h0 : max l 0 ≤ max l' 0 := max_le_max_right 0 h
  have hp : 0 ≤ max l 0 := le_max_right _ _
  have hp' : 0 ≤ max l' 0 := le_max_right _ _
  have hs : max l 0 ^ 2 ≤ max l' 0 ^ 2 := by nlinarith
  have hb : max l' 0 ≤ M := max_le hl' hM
  have hd : max l' 0 - max l 0 ≤ l' - l := by
    rcases le_total l' 0 with a | a
    · rw [max_eq_right a, max_eq_right (h.trans a)]; linarith
    · rw [max_eq_left a]; linarith [le_max_left l 0]
  have hd2 : max l' 0 ^ 2 - max l 0 ^ 2 ≤ 2 * M * (l' - l) := by
    have e : max l' 0 ^ 2 - max l 0 ^ 2 = (max l' 0 + max l 0) * (max l' 0 - max l 0) := by ring
    rw [e]
    have k1 : (max l' 0 + max l 0) * (max l' 0 - max l 0) ≤ (2 * M) * (max l' 0 - max l 0) :=
      mul_le_mul_of_nonneg_right (by linarith) (by linarith)
    have k2 : (2 * M) * (max l' 0 - max l 0) ≤ (2 * M) * (l' - l) := mul_le_mul_of_nonneg_left hd (by linarith)
    linarith
  refine ⟨max_le_max_right _ hs, ?_⟩
  rcases le_total (max l' 0 ^ 2) y with a | a
  · rw [max_eq_right a, max_eq_right (hs.trans a)]
    have : 0 ≤ 2 * M * (l' - l) := mul_nonneg (by linarith) (by linarith)
    linarith
  · rw [max_eq_left a]
    linarith [le_max_left (max l 0 ^ 2) y]

theorem min_sq (x : ℝ) : min x 0 ^ 2 = max (-x) 0 ^ 2 := by
  rcases le_total x 0 with h | h
  · rw [min_eq_left h, max_eq_left (by linarith)]; ring
  · rw [min_eq_right h, max_eq_right (by linarith)]

theorem burgers_left {k M l l' r : ℝ} (hk : 0 < k) (h : l ≤ l') (hl : |l| ≤ M) (hl' : |l'| ≤ M) :
    Simple.burgersUpwind k l r ≤ Simple.burgersUpwind k l' r ∧
      Simple.burgersUpwind k l' r - Simple.burgersUpwind k l r ≤ k * M * (l' - l) := by
  rw [burgers_formula hk, burgers_formula hk]
  obtain ⟨k1, k2⟩ := max_step (y := min r 0 ^ 2) h ((le_abs_self l).trans hl) ((le_abs_self l').trans hl')
    ((abs_nonneg l).trans hl)
  have m1 := mul_le_mul_of_nonneg_left k1 hk.le
  have m2 := mul_le_mul_of_nonneg_left k2 hk.le
  constructor <;> linarith

theorem burgers_right {k M l r r' : ℝ} (hk : 0 < k) (h : r ≤ r') (hr : |r| ≤ M) (hr' : |r'| ≤ M) :
    Simple.burgersUpwind k l r' ≤ Simple.burgersUpwind k l r ∧
      Simple.burgersUpwind k l r - Simple.burgersUpwind k l r' ≤ k * M * (r' - r) := by
  rw [burgers_formula hk, burgers_formula hk, max_comm, max_comm (max l 0 ^ 2), min_sq, min_sq]
  obtain ⟨k1, k2⟩ := max_step (y := max l 0 ^ 2) (neg_le_neg h) ((neg_le_abs r').trans hr') ((neg_le_abs r).trans hr)
    ((abs_nonneg r).trans hr)
  have m1 := mul_le_mul_of_nonneg_left k1 hk.le
  have m2 := mul_le_mul_of_nonneg_left k2 hk.le
  constructor <;> linarith

theorem range_abs {A B v : ℝ} (h1 : A ≤ v) (h2 : v ≤ B) : |v| ≤ max |A| |B| := abs_le_max_abs_abs h1 h2

theorem upwind_left (law : Law) {A B al l l' r : ℝ} (h : l ≤ l') (h1 : A ≤ l) (h2 : l' ≤ B) :
    law.upwind al l r ≤ law.upwind al l' r ∧
      law.upwind al l' r - law.upwind al l r ≤ fastest law A B * |al| * (l' - l) := by
  cases law with
  | single =>
    simp only [Law.upwind, Simple.singleUpwind, fastest]
    split_ifs with ha
    · rw [abs_of_pos ha]
      constructor <;> nlinarith
    · have := mul_nonneg (abs_nonneg al) (sub_nonneg.2 h)
      constructor <;> linarith
  | burgers =>
    simp only [Law.upwind, fastest]
    have b1 := range_abs h1 (h.trans h2)
    have b2 := range_abs (h1.trans h) h2
    rcases lt_trichotomy al 0 with ha | ha | ha
    · obtain ⟨k, rfl⟩ : ∃ k, al = -k := ⟨-al, by ring⟩
      have hk : 0 < k := by linarith
      rw [Simple.burgersUpwind_mirror, Simple.burgersUpwind_mirror, abs_neg, abs_of_pos hk]
      obtain ⟨k1, k2⟩ := burgers_right (l := r) hk h b1 b2
      constructor <;> nlinarith
    · subst ha
      simp [Simple.burgersUpwind]
    · rw [abs_of_pos ha]
      obtain ⟨k1, k2⟩ := burgers_left (r := r) ha h b1 b2
      constructor <;> nlinarith

theorem upwind_right (law : Law) {A B al l r r' : ℝ} (h : r ≤ r') (h1 : A ≤ r) (h2 : r' ≤ B) :
    law.upwind al l r' ≤ law.upwind al l r ∧
      law.upwind al l r - law.upwind al l r' ≤ fastest law A B * |al| * (r' - r) := by
  cases law with
  | single =>
    simp only [Law.upwind, Simple.singleUpwind, fastest]
    split_ifs with ha
    · have := mul_nonneg (abs_nonneg al) (sub_nonneg.2 h)
      constructor <;> linarith
    · rw [abs_of_nonpos (not_lt.1 ha)]
      constructor <;> nlinarith [not_lt.1 ha]
  | burgers =>
    simp only [Law.upwind, fastest]
    have b1 := range_abs h1 (h.trans h2)
    have b2 := range_abs (h1.trans h) h2
    rcases lt_trichotomy al 0 with ha | ha | ha
    · obtain ⟨k, rfl⟩ : ∃ k, al = -k := ⟨-al, by ring⟩
      have hk : 0 < k := by linarith
      rw [Simple.burgersUpwind_mirror, Simple.burgersUpwind_mirror, abs_neg, abs_of_pos hk]
      obtain ⟨k1, k2⟩ := burgers_left (r := l) hk h b1 b2
      constructor <;> nlinarith
    · subst ha
      simp [Simple.burgersUpwind]
    · rw [abs_of_pos ha]
      obtain ⟨k1, k2⟩ := burgers_right (l := l) ha h b1 b2
      constructor <;> nlinarith

theorem upwind_same (law : Law) (al v : ℝ) : law.upwind al v v = law.flux al v := by
  cases law with
  | single => simp [Law.upwind, Law.flux, Simple.singleUpwind, Simple.singleFlux]
  | burgers =>
    simp only [Law.upwind, Law.flux]
    rcases lt_trichotomy al 0 with ha | ha | ha
    · obtain ⟨k, rfl⟩ : ∃ k, al = -k := ⟨-al, by ring⟩
      have hk : 0 < k := by linarith
      rw [Simple.burgersUpwind_mirror, burgers_formula hk, Simple.burgersFlux]
      rcases le_total v 0 with h | h
      · rw [max_eq_right h, min_eq_left h, max_eq_right (by nlinarith)]; ring
      · rw [max_eq_left h, min_eq_right h, max_eq_left (by nlinarith)]; ring
    · subst ha
      simp [Simple.burgersUpwind, Simple.burgersFlux]
    · rw [burgers_formula ha, Simple.burgersFlux]
      rcases le_total v 0 with h | h
      · rw [max_eq_right h, min_eq_left h, max_eq_right (by nlinarith)]; ring
      · rw [max_eq_left h, min_eq_right h, max_eq_left (by nlinarith)]; ring

/-- The change of the flux itself. -/
theorem flux_step (law : Law) {A B al v v' : ℝ} (h : v ≤ v') (h1 : A ≤ v) (h2 : v' ≤ B) :
    law.flux al v' - law.flux al v ≤ fastest law A B * |al| * (v' - v) := by
  rw [← upwind_same, ← upwind_same]
  have k1 := (upwind_left law (al := al) (r := v') h h1 h2).2
  have k2 := (upwind_right law (al := al) (l := v) h h1 h2).1
  linarith

/-- Where the flow goes along the normal the flux grows with the value. -/
theorem flux_mono (law : Law) {al v v' : ℝ} (h : v ≤ v') (h1 : 0 ≤ speed law al v) (h2 : 0 ≤ speed law al v') :
    law.flux al v ≤ law.flux al v' := by
  cases law with
  | single =>
    simp only [speed] at h1
    simp only [Law.flux, Simple.singleFlux]
    nlinarith
  | burgers =>
    simp only [speed] at h1 h2
    simp only [Law.flux, Simple.burgersFlux]
    nlinarith

theorem flux_anti (law : Law) {al v v' : ℝ} (h : v ≤ v') (h1 : speed law al v ≤ 0) (h2 : speed law al v' ≤ 0) :
    law.flux al v' ≤ law.flux al v := by
  cases law with
  | single =>
    simp only [speed] at h1
    simp only [Law.flux, Simple.singleFlux]
    nlinarith
  | burgers =>
    simp only [speed] at h1 h2
    simp only [Law.flux, Simple.burgersFlux]
    nlinarith

end MiniCFD.Volumes
