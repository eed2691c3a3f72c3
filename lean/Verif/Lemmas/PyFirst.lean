import Verif.Spec.PyFirst
import Mathlib.Algebra.Order.BigOperators.Group.Finset
import Mathlib.Algebra.BigOperators.Field
import Mathlib.Algebra.Order.Field.Basic
import Mathlib.Algebra.Group.Fin.Basic
import Mathlib.Tactic.Linarith
import Mathlib.Tactic.FieldSimp
import Mathlib.Tactic.Ring
import Mathlib.Tactic.LinearCombination

/-! Monotone first order schemes on a periodic grid. -/

namespace MiniCFD.PyFirst
open MiniCFD.Spec.PyFirst
variable {n : ℕ}

/-- A flux that grows with the left and falls with the right value, and changes with the two together at most at the rate `L`. -/
structure Monotone (F : ℝ → ℝ → ℝ) (L m M : ℝ) : Prop where
  left : ∀ l l' r, l ≤ l' → F l r ≤ F l' r
  right : ∀ l r r', r ≤ r' → F l r' ≤ F l r
  rate : ∀ l r u u', m ≤ u → u ≤ u' → u' ≤ M → F u' r - F u r + (F l u - F l u') ≤ L * (u' - u)

/-- What the scheme adds per time. -/
noncomputable def rate (F : ℝ → ℝ → ℝ) (h u : Fin (n + 2) → ℝ) (i : Fin (n + 2)) : ℝ :=
  (F (u (i - 1)) (u i) - F (u i) (u (i + 1))) / h i

noncomputable def advance (F : ℝ → ℝ → ℝ) (h : Fin (n + 2) → ℝ) (dt : ℝ) (u : Fin (n + 2) → ℝ) (i : Fin (n + 2)) : ℝ :=
  u i + dt * rate F h u i

variable {F : ℝ → ℝ → ℝ} {L m M dt : ℝ} {h : Fin (n + 2) → ℝ}

theorem advance_mono (hF : Monotone F L m M) (hh : ∀ i, 0 < h i) (hdt : 0 ≤ dt) (hL : ∀ i, dt * L ≤ h i)
    {u w : Fin (n + 2) → ℝ} (hu : Within m M u) (hw : Within m M w) (huw : ∀ i, u i ≤ w i) (i : Fin (n + 2)) :
    advance F h dt u i ≤ advance F h dt w i := by
  have h1 := hF.left (u (i - 1)) (w (i - 1)) (w i) (huw _)
  have h2 := hF.right (w i) (u (i + 1)) (w (i + 1)) (huw _)
  have h3 := hF.rate (u (i - 1)) (u (i + 1)) (u i) (w i) (hu i).1 (huw i) (hw i).2
  have hl : 0 ≤ dt / h i := div_nonneg hdt (hh i).le
  have hl1 : dt / h i * L ≤ 1 := by
    rw [div_mul_eq_mul_div, div_le_one (hh i)]; exact hL i
  have e : advance F h dt w i - advance F h dt u i = (w i - u i) + dt / h i *
      ((F (w (i - 1)) (w i) - F (w i) (w (i + 1))) - (F (u (i - 1)) (u i) - F (u i) (u (i + 1)))) := by
    unfold advance rate
    ring
  have h4 : dt / h i * (-(L * (w i - u i))) ≤ dt / h i *
      ((F (w (i - 1)) (w i) - F (w i) (w (i + 1))) - (F (u (i - 1)) (u i) - F (u i) (u (i + 1)))) :=
    mul_le_mul_of_nonneg_left (by linarith) hl
  have h5 : dt / h i * L * (w i - u i) ≤ 1 * (w i - u i) := mul_le_mul_of_nonneg_right hl1 (sub_nonneg.2 (huw i))
  linarith

theorem advance_const (c : ℝ) (i : Fin (n + 2)) : advance F h dt (fun _ => c) i = c := by
  simp [advance, rate]

/-- No new extremum: the new value lies between the least and the greatest of the three old ones. -/
theorem advance_between (hF : Monotone F L m M) (hh : ∀ i, 0 < h i) (hdt : 0 ≤ dt) (hL : ∀ i, dt * L ≤ h i)
    {u : Fin (n + 2) → ℝ} (hu : Within m M u) (i : Fin (n + 2)) :
    min (u (i - 1)) (min (u i) (u (i + 1))) ≤ advance F h dt u i ∧
      advance F h dt u i ≤ max (u (i - 1)) (max (u i) (u (i + 1))) := by
  have hl : 0 ≤ dt / h i := div_nonneg hdt (hh i).le
  have hl1 : dt / h i * L ≤ 1 := by
    rw [div_mul_eq_mul_div, div_le_one (hh i)]; exact hL i
  have e : advance F h dt u i = u i + dt / h i * (F (u (i - 1)) (u i) - F (u i) (u (i + 1))) := by
    unfold advance rate
    ring
  rw [e]
  set a := min (u (i - 1)) (min (u i) (u (i + 1))) with ha
  set b := max (u (i - 1)) (max (u i) (u (i + 1))) with hb
  have a1 : a ≤ u (i - 1) := min_le_left _ _
  have a2 : a ≤ u i := (min_le_right _ _).trans (min_le_left _ _)
  have a3 : a ≤ u (i + 1) := (min_le_right _ _).trans (min_le_right _ _)
  have b1 : u (i - 1) ≤ b := le_max_left _ _
  have b2 : u i ≤ b := (le_max_left _ _).trans (le_max_right _ _)
  have b3 : u (i + 1) ≤ b := (le_max_right _ _).trans (le_max_right _ _)
  have ma : m ≤ a := le_min (hu _).1 (le_min (hu _).1 (hu _).1)
  have bM : b ≤ M := max_le (hu _).2 (max_le (hu _).2 (hu _).2)
  constructor
  · have h1 := hF.left a (u (i - 1)) (u i) a1
    have h2 := hF.right (u i) a (u (i + 1)) a3
    have h3 := hF.rate a a a (u i) ma a2 (hu i).2
    have h4 : dt / h i * (-(L * (u i - a))) ≤ dt / h i * (F (u (i - 1)) (u i) - F (u i) (u (i + 1))) :=
      mul_le_mul_of_nonneg_left (by linarith) hl
    have h5 : dt / h i * L * (u i - a) ≤ 1 * (u i - a) := mul_le_mul_of_nonneg_right hl1 (by linarith)
    linarith
  · have h1 := hF.left (u (i - 1)) b (u i) b1
    have h2 := hF.right (u i) (u (i + 1)) b b3
    have h3 := hF.rate b b (u i) b (hu i).1 b2 bM
    have h4 : dt / h i * (F (u (i - 1)) (u i) - F (u i) (u (i + 1))) ≤ dt / h i * (L * (b - u i)) :=
      mul_le_mul_of_nonneg_left (by linarith) hl
    have h5 : dt / h i * L * (b - u i) ≤ 1 * (b - u i) := mul_le_mul_of_nonneg_right hl1 (by linarith)
    linarith

theorem advance_within (hF : Monotone F L m M) (hh : ∀ i, 0 < h i) (hdt : 0 ≤ dt) (hL : ∀ i, dt * L ≤ h i)
    {u : Fin (n + 2) → ℝ} (hu : Within m M u) : Within m M (advance F h dt u) := by
  intro i
  obtain ⟨h1, h2⟩ := advance_between hF hh hdt hL hu i
  exact ⟨(le_min (hu _).1 (le_min (hu _).1 (hu _).1)).trans h1, h2.trans (max_le (hu _).2 (max_le (hu _).2 (hu _).2))⟩

theorem sum_next (f : Fin (n + 2) → ℝ) : ∑ i, f (i + 1) = ∑ i, f i := Equiv.sum_comp (Equiv.addRight (1 : Fin (n + 2))) f
theorem sum_prev (f : Fin (n + 2) → ℝ) : ∑ i, f (i - 1) = ∑ i, f i := Equiv.sum_comp (Equiv.subRight (1 : Fin (n + 2))) f

/-- The integral is kept. -/
theorem advance_sum (hh : ∀ i, 0 < h i) (u : Fin (n + 2) → ℝ) : ∑ i, h i * advance F h dt u i = ∑ i, h i * u i := by
  have e : ∀ i, h i * advance F h dt u i = h i * u i + dt * (F (u (i - 1)) (u i) - F (u i) (u (i + 1))) := by
    intro i
    have := (hh i).ne'
    unfold advance rate
    field_simp
  simp only [e, Finset.sum_add_distrib, ← Finset.mul_sum, Finset.sum_sub_distrib]
  have := sum_prev fun i => F (u i) (u (i + 1))
  simp only [sub_add_cancel] at this
  rw [this]
  ring

/-- Two solutions do not move apart. -/
theorem advance_distance (hF : Monotone F L m M) (hh : ∀ i, 0 < h i) (hdt : 0 ≤ dt) (hL : ∀ i, dt * L ≤ h i)
    {u w : Fin (n + 2) → ℝ} (hu : Within m M u) (hw : Within m M w) :
    distance h (advance F h dt u) (advance F h dt w) ≤ distance h u w := by
  set v : Fin (n + 2) → ℝ := fun i => max (u i) (w i) with hv
  have hvr : Within m M v := fun i => ⟨(hu i).1.trans (le_max_left _ _), max_le (hu i).2 (hw i).2⟩
  have h1 := advance_mono hF hh hdt hL hu hvr fun i => le_max_left _ _
  have h2 := advance_mono hF hh hdt hL hw hvr fun i => le_max_right _ _
  have h3 : distance h (advance F h dt u) (advance F h dt w) ≤
      ∑ i, h i * (2 * advance F h dt v i - advance F h dt u i - advance F h dt w i) := by
    refine Finset.sum_le_sum fun i _ => mul_le_mul_of_nonneg_left (abs_le.2 ⟨?_, ?_⟩) (hh i).le
    · have := h1 i; have := h2 i; linarith
    · have := h1 i; have := h2 i; linarith
  refine h3.trans (le_of_eq ?_)
  have e : ∀ a b c : Fin (n + 2) → ℝ, ∑ i, h i * (2 * a i - b i - c i) =
      2 * ∑ i, h i * a i - ∑ i, h i * b i - ∑ i, h i * c i := by
    intro a b c
    rw [Finset.mul_sum, ← Finset.sum_sub_distrib, ← Finset.sum_sub_distrib]
    exact Finset.sum_congr rfl fun i _ => by ring
  rw [e, advance_sum hh, advance_sum hh, advance_sum hh, ← e]
  refine Finset.sum_congr rfl fun i _ => ?_
  congr 1
  rcases le_total (u i) (w i) with h | h
  · simp only [hv, max_eq_right h]
    rw [abs_of_nonpos (by linarith)]
    ring
  · simp only [hv, max_eq_left h]
    rw [abs_of_nonneg (by linarith)]
    ring

/-- The total variation does not grow. -/
theorem advance_variation (hF : Monotone F L m M) (hh : ∀ i, 0 < h i) (hdt : 0 ≤ dt) (hL : ∀ i, dt * L ≤ h i)
    {u : Fin (n + 2) → ℝ} (hu : Within m M u) : variation (advance F h dt u) ≤ variation u := by
  set c : Fin (n + 2) → ℝ := fun i => dt / h i * (F (u i) (u i) - F (u i) (u (i + 1))) with hc
  set d : Fin (n + 2) → ℝ := fun i => dt / h (i + 1) * (F (u (i + 1)) (u (i + 1)) - F (u i) (u (i + 1))) with hd
  have hl : ∀ i, 0 ≤ dt / h i := fun i => div_nonneg hdt (hh i).le
  have hl1 : ∀ i, dt / h i * L ≤ 1 := fun i => by
    rw [div_mul_eq_mul_div, div_le_one (hh i)]; exact hL i
  -- parts of the jump that go to the two sides
  have key : ∀ i, |u (i + 1) - u i - c i - d i| = |u (i + 1) - u i| - |c i| - |d i| := by
    intro i
    rcases le_total (u i) (u (i + 1)) with hle | hle
    · have hc0 : 0 ≤ F (u i) (u i) - F (u i) (u (i + 1)) := by have := hF.right (u i) _ _ hle; linarith
      have hd0 : 0 ≤ F (u (i + 1)) (u (i + 1)) - F (u i) (u (i + 1)) := by have := hF.left _ _ (u (i + 1)) hle; linarith
      have hr := hF.rate (u i) (u (i + 1)) (u i) (u (i + 1)) (hu i).1 hle (hu _).2
      have b1 : c i + d i ≤ u (i + 1) - u i := by
        rcases le_total (h i) (h (i + 1)) with hm | hm
        · have : d i ≤ dt / h i * (F (u (i + 1)) (u (i + 1)) - F (u i) (u (i + 1))) :=
            mul_le_mul_of_nonneg_right (div_le_div_of_nonneg_left hdt (hh i) hm) hd0
          have h2 := mul_le_mul_of_nonneg_left hr (hl i)
          have h3 := mul_le_mul_of_nonneg_right (hl1 i) (sub_nonneg.2 hle)
          simp only [hc]
          linarith
        · have : c i ≤ dt / h (i + 1) * (F (u i) (u i) - F (u i) (u (i + 1))) :=
            mul_le_mul_of_nonneg_right (div_le_div_of_nonneg_left hdt (hh _) hm) hc0
          have h2 := mul_le_mul_of_nonneg_left hr (hl (i + 1))
          have h3 := mul_le_mul_of_nonneg_right (hl1 (i + 1)) (sub_nonneg.2 hle)
          simp only [hd]
          linarith
      rw [abs_of_nonneg (by linarith), abs_of_nonneg (by linarith), abs_of_nonneg (mul_nonneg (hl _) hc0),
        abs_of_nonneg (mul_nonneg (hl _) hd0)]
    · have hc0 : F (u i) (u i) - F (u i) (u (i + 1)) ≤ 0 := by have := hF.right (u i) _ _ hle; linarith
      have hd0 : F (u (i + 1)) (u (i + 1)) - F (u i) (u (i + 1)) ≤ 0 := by have := hF.left _ _ (u (i + 1)) hle; linarith
      have hr := hF.rate (u i) (u (i + 1)) (u (i + 1)) (u i) (hu _).1 hle (hu _).2
      have b1 : u (i + 1) - u i ≤ c i + d i := by
        rcases le_total (h i) (h (i + 1)) with hm | hm
        · have : dt / h i * (F (u (i + 1)) (u (i + 1)) - F (u i) (u (i + 1))) ≤ d i :=
            mul_le_mul_of_nonpos_right (div_le_div_of_nonneg_left hdt (hh i) hm) hd0
          have h2 := mul_le_mul_of_nonneg_left hr (hl i)
          have h3 := mul_le_mul_of_nonneg_right (hl1 i) (sub_nonneg.2 hle)
          simp only [hc]
          linarith
        · have : dt / h (i + 1) * (F (u i) (u i) - F (u i) (u (i + 1))) ≤ c i :=
            mul_le_mul_of_nonpos_right (div_le_div_of_nonneg_left hdt (hh _) hm) hc0
          have h2 := mul_le_mul_of_nonneg_left hr (hl (i + 1))
          have h3 := mul_le_mul_of_nonneg_right (hl1 (i + 1)) (sub_nonneg.2 hle)
          simp only [hd]
          linarith
      rw [abs_of_nonpos (by linarith), abs_of_nonpos (by linarith), abs_of_nonpos (mul_nonpos_of_nonneg_of_nonpos (hl _) hc0),
        abs_of_nonpos (mul_nonpos_of_nonneg_of_nonpos (hl _) hd0)]
      ring
  have adv : ∀ i, advance F h dt u i = u i + c i - d (i - 1) := by
    intro i
    simp only [hc, hd, advance, rate, sub_add_cancel]
    ring
  have hdiff : ∀ i, advance F h dt u (i + 1) - advance F h dt u i =
      (u (i + 1) - u i - c i - d i) + c (i + 1) + d (i - 1) := by
    intro i
    rw [adv, adv, add_sub_cancel_right]
    ring
  have hle : ∀ i, |advance F h dt u (i + 1) - advance F h dt u i| ≤
      (|u (i + 1) - u i| - |c i| - |d i|) + |c (i + 1)| + |d (i - 1)| := by
    intro i
    rw [hdiff, ← key]
    exact (abs_add_le _ _).trans (add_le_add (abs_add_le _ _) le_rfl)
  refine (Finset.sum_le_sum fun i _ => hle i).trans (le_of_eq ?_)
  simp only [Finset.sum_add_distrib, Finset.sum_sub_distrib]
  rw [sum_next fun i => |c i|, sum_prev fun i => |d i|]
  unfold variation
  ring

/-- The entropy inequality of every element, for the entropies of Kruzhkov. -/
theorem advance_entropy (hF : Monotone F L m M) (hh : ∀ i, 0 < h i) (hdt : 0 ≤ dt) (hL : ∀ i, dt * L ≤ h i)
    {u : Fin (n + 2) → ℝ} (hu : Within m M u) {c : ℝ} (hc : m ≤ c ∧ c ≤ M) (i : Fin (n + 2)) :
    |advance F h dt u i - c| ≤ |u i - c| - dt / h i *
      ((F (max (u i) c) (max (u (i + 1)) c) - F (min (u i) c) (min (u (i + 1)) c)) -
        (F (max (u (i - 1)) c) (max (u i) c) - F (min (u (i - 1)) c) (min (u i) c))) := by
  have hmax : Within m M fun i => max (u i) c := fun i => ⟨(hu i).1.trans (le_max_left _ _), max_le (hu i).2 hc.2⟩
  have hmin : Within m M fun i => min (u i) c := fun i => ⟨le_min (hu i).1 hc.1, (min_le_left _ _).trans (hu i).2⟩
  have hcc : Within m M fun _ : Fin (n + 2) => c := fun _ => hc
  have h1 := advance_mono hF hh hdt hL hu hmax (fun i => le_max_left _ _) i
  have h2 := advance_mono hF hh hdt hL hcc hmax (fun i => le_max_right _ _) i
  have h3 := advance_mono hF hh hdt hL hmin hu (fun i => min_le_left _ _) i
  have h4 := advance_mono hF hh hdt hL hmin hcc (fun i => min_le_right _ _) i
  rw [advance_const] at h2 h4
  have e : advance F h dt (fun i => max (u i) c) i - advance F h dt (fun i => min (u i) c) i = |u i - c| - dt / h i *
      ((F (max (u i) c) (max (u (i + 1)) c) - F (min (u i) c) (min (u (i + 1)) c)) -
        (F (max (u (i - 1)) c) (max (u i) c) - F (min (u (i - 1)) c) (min (u i) c))) := by
    have : max (u i) c - min (u i) c = |u i - c| := by
      rcases le_total (u i) c with h | h
      · rw [max_eq_right h, min_eq_left h, abs_of_nonpos (by linarith)]; ring
      · rw [max_eq_left h, min_eq_right h, abs_of_nonneg (by linarith)]
    rw [← this]
    unfold advance rate
    ring
  rw [← e]
  exact abs_le.2 ⟨by linarith, by linarith⟩

end MiniCFD.PyFirst
