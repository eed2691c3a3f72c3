import Verif.Lemmas.PyDetector
import Verif.Props.PyGauss
import Mathlib.Algebra.Order.Chebyshev
import Mathlib.Analysis.SpecialFunctions.Log.Base

/-!
# C108 and C109: the detectors on modes
-/

namespace MiniCFD.PyDetector

open MiniCFD.PyQuad MiniCFD.PyExpansion MiniCFD.PyLimiter

section Persson
variable {p m : ℕ} {co : Coordinate} {s : Setup p}

private theorem weight_pos (hc : co.xLeft < co.xRight) (h : Built co s) (n : Fin (p + 1)) : 0 < s.modeWeight n := by
  unfold Setup.modeWeight
  rw [(h.sane hc).2, co.eq_linear.2.2.1]
  have : (0 : ℝ) < co.xRight - co.xLeft := by linarith
  positivity

/-- The energy of a mode is the integral of the square of its part of the solution; the energies of the modes of a
component add up to the integral of its square. -/
theorem energy_meaning (hc : co.xLeft < co.xRight) (h : Built co s) (hk : s.kind = .modal) {st : State p (Value m)}
    (hr : Reached s st) (k : Fin (m + 1)) :
    (∀ n, energy s st.coeff k n = ∫ x in co.xLeft..co.xRight, (s.basisValues x n * st.coeff n k) ^ 2) ∧
    ∑ n, energy s st.coeff k n = ∫ x in co.xLeft..co.xRight, s.value st x k ^ 2 := by
  constructor
  · intro n
    have h1 := (mass_matrix hc h n n).1 (by rw [hk]; simp)
    rw [(mass_matrix hc h n n).2.2 hk, if_pos rfl] at h1
    rw [energy, h1, ← intervalIntegral.integral_mul_const]
    congr 1
    funext x
    ring
  · have h1 := parseval hc h hk (st := setCoeff s fun n => st.coeff n k) (.coeff _ rfl)
    have e : ∀ x, s.value (setCoeff s fun n => st.coeff n k) x = s.value st x k := by
      intro x
      rw [value_eq hc h (.coeff _ rfl), value_eq hc h hr, Finset.sum_apply]
      rfl
    simp only [e] at h1
    rw [← h1]
    rfl

/-- C108: On a Legendre expansion of degree 1 or more, `Persson2006` reports an element exactly if, in some component, the
energy of the highest mode is more than the share `p⁻³` of the total (with its floor); the smoothness is between 0 and `p³`,
and 0 exactly if the highest mode is absent. -/
theorem persson_partial (c : Cell p m) (hp : p ≠ 0) (hc : co.xLeft < co.xRight) (h : Built co c.setup) (hk : c.setup.kind = .modal)
    (hr : Reached c.setup c.state) : ∃ v, persson c = some v ∧ 0 ≤ v ∧ v < (p : ℝ) ^ 3 ∧
      (v = 0 ↔ c.state.coeff (Fin.last p) = 0) ∧
      (1 < v ↔ ∃ k, (∫ x in co.xLeft..co.xRight, c.setup.value c.state x k ^ 2) + tiny <
        p ^ 3 * ∫ x in co.xLeft..co.xRight, (Vincent.legendre p (co.globalToLocal x) * c.state.coeff (Fin.last p) k) ^ 2) := by
  have ht := tiny_pos
  have hp3 : (0 : ℝ) < (p : ℝ) ^ 3 := pow_pos (by exact_mod_cast Nat.pos_of_ne_zero hp) 3
  have hi3 : (0 : ℝ) < ((p : ℝ) ^ 3)⁻¹ := inv_pos.2 hp3
  have he : ∀ k n, 0 ≤ energy c.setup c.state.coeff k n := fun k n => mul_nonneg (weight_pos hc h n).le (sq_nonneg _)
  have hle : ∀ k, energy c.setup c.state.coeff k (Fin.last p) ≤ ∑ n, energy c.setup c.state.coeff k n := fun k =>
    Finset.single_le_sum (fun n _ => he k n) (Finset.mem_univ _)
  have hd : ∀ k, 0 < 0 + ∑ n, energy c.setup c.state.coeff k n + tiny := fun k => by
    have := Finset.sum_nonneg fun n (_ : n ∈ Finset.univ) => he k n
    linarith
  have hs0 : ∀ k, 0 ≤ energy c.setup c.state.coeff k (Fin.last p) / (0 + ∑ n, energy c.setup c.state.coeff k n + tiny) := fun k =>
    div_nonneg (he k _) (hd k).le
  have hbasis : ∀ x, c.setup.basisValues x (Fin.last p) = Vincent.legendre p (co.globalToLocal x) := by
    intro x
    cases h with
    | uniform rule exact hu => rw [(lagrange_sane (by simp) hc hu).2.2.1] at hk; simp at hk
    | legendreRoots rule exact hu => rw [(lagrange_sane (by simp) hc hu).2.2.1] at hk; simp at hk
    | lobatto hu =>
      obtain ⟨rule, hr', hu⟩ := lobatto_cases hu
      rw [(lagrange_sane (by simp) hc hu).2.2.1] at hk; simp at hk
    | modal rule exact hu => rw [(modal_sane hc hu).2.2.2.2.2]; rfl
  refine ⟨_, by rw [persson, if_neg hp, perssonSensor, hk]; rfl, ?_, ?_, ?_, ?_⟩
  · exact scalar_nonneg hs0 fun _ => hi3.le
  · unfold scalarSmoothness
    rw [Finset.sup'_lt_iff]
    intro k _
    rw [div_inv_eq_mul]
    refine (mul_lt_iff_lt_one_left hp3).2 ?_
    rw [div_lt_one (hd k)]
    linarith [hle k]
  · rw [scalar_zero hs0 fun _ => hi3]
    constructor
    · intro e
      funext k
      rcases div_eq_zero_iff.1 (e k) with e' | e'
      · rcases mul_eq_zero.1 e' with e' | e'
        · exact absurd e' (weight_pos hc h _).ne'
        · exact pow_eq_zero_iff (two_ne_zero) |>.1 e'
      · exact absurd e' (hd k).ne'
    · intro e k
      rw [energy, e]; simp
  · rw [← gt_iff_lt, scalar_gt]
    refine exists_congr fun k => ?_
    obtain ⟨h1, h2⟩ := energy_meaning hc h hk hr k
    rw [gt_iff_lt, div_inv_eq_mul, div_mul_eq_mul_div, lt_div_iff₀ (hd k), h2, h1]
    simp only [hbasis]
    rw [one_mul, zero_add, mul_comm (_ : ℝ) ((p : ℝ) ^ 3)]

/-- C108: An element of degree 1 is never reported. -/
theorem persson_linear (c : Cell 1 m) (hc : co.xLeft < co.xRight) (h : Built co c.setup) (hk : c.setup.kind = .modal)
    (hr : Reached c.setup c.state) : ∃ v, persson c = some v ∧ v < 1 := by
  obtain ⟨v, h1, _, h2, _⟩ := persson_partial c one_ne_zero hc h hk hr
  exact ⟨v, h1, by simpa using h2⟩

/-- The code violates C108: on a Lagrange expansion the detector fails. -/
theorem persson_nodal_fails (c : Cell p m) (hk : c.setup.kind ≠ .modal) : persson c = none := by
  unfold persson
  split_ifs
  · rfl
  · unfold perssonSensor
    cases hk' : c.setup.kind with
    | modal => exact absurd hk' hk
    | _ => rfl

/-- There are such expansions. -/
example : ∃ s : Setup 1, Built (.linear 0 1) s ∧ s.kind ≠ .modal ∧ ∀ st : State 1 (Value 0), persson ⟨s, st, none, none⟩ = none := by
  have hc : (Coordinate.linear 0 1).xLeft < (Coordinate.linear 0 1).xRight := by simp [Coordinate.xLeft, Coordinate.xRight]
  obtain ⟨s, hs⟩ := (constructors hc gauss2_exact).2.1
  have hk : s.kind ≠ .modal := by rw [(lagrange_sane (by simp) hc hs).2.2.1]; simp
  exact ⟨s, .legendreRoots _ gauss2_exact hs, hk, fun st => persson_nodal_fails _ hk⟩

/-- C108: Elements of degree 0 make it fail, too. -/
theorem persson_zero_fails (c : Cell 0 m) : persson c = none := if_pos rfl

end Persson

section Slope

/-- The decay rates that are added sum up to 1, and all are positive. -/
theorem decay_table {p : ℕ} (hp : p ≠ 0) : (∑ n ∈ Finset.range p, b2 p (n + 1) = 1) ∧ ∀ n, 1 ≤ n → 0 < b2 p n := by
  have hpos : ∀ n : ℕ, 1 ≤ n → (0 : ℝ) < ((n : ℝ) ^ (2 * p))⁻¹ := fun n hn => by
    have : (0 : ℝ) < n := by exact_mod_cast hn
    positivity
  have hsum : (0 : ℝ) < ∑ j ∈ Finset.range p, (((j : ℝ) + 1) ^ (2 * p))⁻¹ :=
    Finset.sum_pos (fun j _ => by positivity) (Finset.nonempty_range_iff.2 hp)
  refine ⟨?_, fun n hn => div_pos (hpos n hn) hsum⟩
  unfold b2
  rw [← Finset.sum_div]
  push_cast
  exact div_self hsum.ne'

/-- C109: `apply_skyline` replaces each entry by the largest of those behind it (the last by the larger of the last two). -/
theorem skyline_spec {p : ℕ} (hp : 2 ≤ p) {e : ℕ → ℝ} (he : ∀ n, 1 ≤ n → n ≤ p → 0 < e n) {n : ℕ} (h1 : 1 ≤ n) (hn : n ≤ p) :
    IsGreatest (e '' Set.Icc (min n (p - 1)) p) (skyline p e n) := by
  have key : ∀ d n, p - n = d → 1 ≤ n → n ≤ p → IsGreatest (e '' Set.Icc (min n (p - 1)) p) (skyline p e n) := by
    intro d
    induction d using Nat.strong_induction_on with
    | _ d ih =>
      intro n hd h1 hn
      unfold skyline
      split_ifs with hlast hzero
      · have hm : min n (p - 1) = p - 1 := by omega
        rw [hm, abs_of_pos (he p (by omega) le_rfl), abs_of_pos (he (p - 1) (by omega) (by omega))]
        constructor
        · rcases max_choice (e p) (e (p - 1)) with h | h <;> rw [h]
          · exact ⟨p, ⟨by omega, le_rfl⟩, rfl⟩
          · exact ⟨p - 1, ⟨le_rfl, by omega⟩, rfl⟩
        · rintro _ ⟨j, ⟨hj1, hj2⟩, rfl⟩
          rcases (show j = p ∨ j = p - 1 by omega) with rfl | rfl
          · exact le_max_left _ _
          · exact le_max_right _ _
      · omega
      · obtain ⟨hmem, hup⟩ := ih (p - (n + 1)) (by omega) (n + 1) rfl (by omega) (by omega)
        have e1 : min n (p - 1) = n := by omega
        have e2 : min (n + 1) (p - 1) = n + 1 := by omega
        rw [e2] at hmem hup
        rw [e1]
        constructor
        · rcases max_choice (e n) (skyline p e (n + 1)) with h | h <;> rw [h]
          · exact ⟨n, ⟨le_rfl, hn⟩, rfl⟩
          · obtain ⟨j, ⟨hj1, hj2⟩, hj⟩ := hmem
            exact ⟨j, ⟨by omega, hj2⟩, hj⟩
        · rintro _ ⟨j, ⟨hj1, hj2⟩, rfl⟩
          rcases Nat.eq_or_lt_of_le hj1 with rfl | hlt
          · exact le_max_left _ _
          · exact (hup ⟨j, ⟨hlt, hj2⟩, rfl⟩).trans (le_max_right _ _)
  exact key _ n rfl h1 hn

private theorem skyline_antitone {p : ℕ} (hp : 2 ≤ p) {e : ℕ → ℝ} (he : ∀ n, 1 ≤ n → n ≤ p → 0 < e n) {i j : ℕ} (h1 : 1 ≤ i)
    (hij : i ≤ j) (hj : j ≤ p) : skyline p e j ≤ skyline p e i := by
  have hi := skyline_spec hp he h1 (hij.trans hj)
  have hj' := skyline_spec hp he (h1.trans hij) hj
  obtain ⟨l, ⟨hl1, hl2⟩, hl⟩ := hj'.1
  rw [← hl]
  exact hi.2 ⟨l, ⟨by omega, hl2⟩, rfl⟩

private theorem skyline_pos {p : ℕ} (hp : 2 ≤ p) {e : ℕ → ℝ} (he : ∀ n, 1 ≤ n → n ≤ p → 0 < e n) {n : ℕ} (h1 : 1 ≤ n) (hn : n ≤ p) :
    0 < skyline p e n := by
  obtain ⟨l, ⟨hl1, hl2⟩, hl⟩ := (skyline_spec hp he h1 hn).1
  rw [← hl]
  exact he l (by omega) hl2

private noncomputable def xs (k : ℕ) : ℝ := -2 * Real.logb 10 ((k : ℝ) + 1)

private theorem xs_zero : xs 0 = 0 := by simp [xs]

private noncomputable def spread (p : ℕ) : ℝ := ∑ k ∈ Finset.range p, xs k * xs k - (∑ k ∈ Finset.range p, xs k) * (∑ k ∈ Finset.range p, xs k) / p

private theorem slope_eq {p : ℕ} (hp : 1 ≤ p) (e : ℕ → ℝ) : slope p e =
    (∑ k ∈ Finset.range p, xs k * Real.logb 10 (e (k + 1)) -
      (∑ k ∈ Finset.range p, xs k) * (∑ k ∈ Finset.range p, Real.logb 10 (e (k + 1))) / p) / spread p := by
  have key : ∀ f : ℕ → ℝ, ∑ k ∈ Finset.range p, f k = f 0 + ∑ k ∈ Finset.Ico 1 p, f k := by
    intro f
    rw [Finset.range_eq_Ico, Finset.sum_eq_sum_Ico_succ_bot (by omega)]
  unfold slope spread
  simp only [key, xs_zero, zero_mul, zero_add]
  rfl

private theorem spread_eq {p : ℕ} (hp : 1 ≤ p) {μ : ℝ} (hμ : μ = (∑ k ∈ Finset.range p, xs k) / p) :
    spread p = ∑ k ∈ Finset.range p, (xs k - μ) ^ 2 := by
  have hp0 : (p : ℝ) ≠ 0 := by positivity
  have e : ∀ k, (xs k - μ) ^ 2 = xs k * xs k - 2 * μ * xs k + μ ^ 2 := fun k => by ring
  simp only [e, Finset.sum_add_distrib, Finset.sum_sub_distrib, ← Finset.mul_sum, Finset.sum_const, Finset.card_range, nsmul_eq_mul]
  unfold spread
  have : ∑ k ∈ Finset.range p, xs k = p * μ := by rw [hμ]; field_simp
  rw [this]
  field_simp
  ring

private theorem xs_lt {i j : ℕ} (h : i < j) : xs j < xs i := by
  unfold xs
  have := Real.logb_lt_logb (b := 10) (by norm_num) (show (0 : ℝ) < (i : ℝ) + 1 by positivity)
    (show (i : ℝ) + 1 < (j : ℝ) + 1 by exact_mod_cast Nat.succ_lt_succ h)
  linarith

private theorem spread_pos {p : ℕ} (hp : 2 ≤ p) : 0 < spread p := by
  rw [spread_eq (by omega) rfl]
  set μ := (∑ k ∈ Finset.range p, xs k) / p
  refine lt_of_le_of_ne (Finset.sum_nonneg fun _ _ => sq_nonneg _) fun h => ?_
  have hz := (Finset.sum_eq_zero_iff_of_nonneg fun k _ => sq_nonneg (xs k - μ)).1 h.symm
  have h0 := pow_eq_zero_iff (two_ne_zero) |>.1 (hz 0 (Finset.mem_range.2 (by omega)))
  have h1 := pow_eq_zero_iff (two_ne_zero) |>.1 (hz 1 (Finset.mem_range.2 (by omega)))
  have := xs_lt (show 0 < 1 by omega)
  linarith

/-- C109: The slope is that of the line of least squares through the decimal logarithms of the entries, as a function of
`-2 log n`; it is the only one. -/
theorem slope_least_squares {p : ℕ} (hp : 2 ≤ p) (e : ℕ → ℝ) : ∃ a : ℝ, ∀ a' s' : ℝ,
    let defect : ℝ → ℝ → ℝ := fun a s =>
      ∑ k ∈ Finset.range p, (Real.logb 10 (e (k + 1)) - (a + s * (-2 * Real.logb 10 ((k : ℝ) + 1)))) ^ 2
    defect a (slope p e) ≤ defect a' s' ∧ (defect a' s' ≤ defect a (slope p e) → s' = slope p e) := by
  have hp0 : (0 : ℝ) < p := by positivity
  set y : ℕ → ℝ := fun k => Real.logb 10 (e (k + 1)) with hy
  set X := ∑ k ∈ Finset.range p, xs k with hX
  set Y := ∑ k ∈ Finset.range p, y k with hY
  set s := slope p e with hs
  refine ⟨(Y - s * X) / p, fun a' s' => ?_⟩
  set a := (Y - s * X) / p with ha
  have hD := spread_pos hp
  have hslope : s * spread p = ∑ k ∈ Finset.range p, xs k * y k - X * Y / p := by
    rw [hs, slope_eq (by omega)]
    exact div_mul_cancel₀ _ hD.ne'
  have hn1 : ∑ k ∈ Finset.range p, (y k - (a + s * xs k)) = 0 := by
    simp only [Finset.sum_sub_distrib, Finset.sum_add_distrib, ← Finset.mul_sum, Finset.sum_const, Finset.card_range, nsmul_eq_mul]
    rw [← hX, ← hY, ha]
    field_simp
    ring
  have hn2 : ∑ k ∈ Finset.range p, (y k - (a + s * xs k)) * xs k = 0 := by
    have e1 : ∀ k, (y k - (a + s * xs k)) * xs k = xs k * y k - a * xs k - s * (xs k * xs k) := fun k => by ring
    simp only [e1, Finset.sum_sub_distrib, ← Finset.mul_sum]
    rw [← hX]
    have e2 : ∑ k ∈ Finset.range p, xs k * xs k = spread p + X * X / p := by rw [spread]; ring
    rw [e2, mul_add, hslope, ha]
    field_simp
    ring
  have hsplit : ∑ k ∈ Finset.range p, (y k - (a' + s' * xs k)) ^ 2 =
      ∑ k ∈ Finset.range p, (y k - (a + s * xs k)) ^ 2 + ∑ k ∈ Finset.range p, ((a - a') + (s - s') * xs k) ^ 2 := by
    have e1 : ∀ k, (y k - (a' + s' * xs k)) ^ 2 = (y k - (a + s * xs k)) ^ 2 + ((a - a') + (s - s') * xs k) ^ 2 +
        (2 * (a - a') * (y k - (a + s * xs k)) + 2 * (s - s') * ((y k - (a + s * xs k)) * xs k)) := fun k => by ring
    simp only [e1, Finset.sum_add_distrib, ← Finset.mul_sum]
    rw [hn1, hn2]
    ring
  change ∑ k ∈ Finset.range p, (y k - (a + s * xs k)) ^ 2 ≤ ∑ k ∈ Finset.range p, (y k - (a' + s' * xs k)) ^ 2 ∧
    (∑ k ∈ Finset.range p, (y k - (a' + s' * xs k)) ^ 2 ≤ ∑ k ∈ Finset.range p, (y k - (a + s * xs k)) ^ 2 → s' = s)
  have hnn : 0 ≤ ∑ k ∈ Finset.range p, ((a - a') + (s - s') * xs k) ^ 2 := Finset.sum_nonneg fun _ _ => sq_nonneg _
  refine ⟨by linarith, fun h => ?_⟩
  have hz : ∑ k ∈ Finset.range p, ((a - a') + (s - s') * xs k) ^ 2 = 0 := by linarith
  have hz' := (Finset.sum_eq_zero_iff_of_nonneg fun k _ => sq_nonneg ((a - a') + (s - s') * xs k)).1 hz
  have h0 := pow_eq_zero_iff (two_ne_zero) |>.1 (hz' 0 (Finset.mem_range.2 (by omega)))
  have h1 := pow_eq_zero_iff (two_ne_zero) |>.1 (hz' 1 (Finset.mem_range.2 (by omega)))
  have hlt := xs_lt (show 0 < 1 by omega)
  rw [xs_zero] at hlt h0
  have : (s - s') * xs 1 = 0 := by linarith
  rcases mul_eq_zero.1 this with h2 | h2 <;> linarith

private theorem slope_of_line {p : ℕ} (hp : 2 ≤ p) {e : ℕ → ℝ} {a s : ℝ}
    (h : ∀ k < p, Real.logb 10 (e (k + 1)) = a + s * (-2 * Real.logb 10 ((k : ℝ) + 1))) : slope p e = s := by
  obtain ⟨b, hb⟩ := slope_least_squares hp e
  refine ((hb a s).2 ?_).symm
  dsimp only
  rw [Finset.sum_eq_zero fun k hk => by rw [h k (Finset.mem_range.1 hk), sub_self, zero_pow two_ne_zero]]
  exact Finset.sum_nonneg fun _ _ => sq_nonneg _

/-- C109: The slope of entries that decay as the power `n ^ (-2 s)` is `s`. -/
theorem slope_power_law {p : ℕ} (hp : 2 ≤ p) {e : ℕ → ℝ} {C s : ℝ} (hC : 0 < C)
    (h : ∀ n, 1 ≤ n → n ≤ p → e n = C * (n : ℝ) ^ (-2 * s)) : slope p e = s := by
  refine slope_of_line hp (a := Real.logb 10 C) fun k hk => ?_
  have hk1 : (0 : ℝ) < (k : ℝ) + 1 := by positivity
  rw [h (k + 1) (by omega) (by omega)]
  push_cast
  rw [Real.logb_mul hC.ne' (Real.rpow_pos_of_pos hk1 _).ne', Real.logb_rpow_eq_mul_logb_of_pos hk1]
  ring

/-- C109: The slope of entries that do not increase is not negative. -/
theorem slope_nonneg {p : ℕ} (hp : 2 ≤ p) {e : ℕ → ℝ} (hpos : ∀ n, 1 ≤ n → n ≤ p → 0 < e n)
    (hanti : ∀ i j, 1 ≤ i → i ≤ j → j ≤ p → e j ≤ e i) : 0 ≤ slope p e := by
  rw [slope_eq (by omega)]
  refine div_nonneg ?_ (spread_pos hp).le
  have hm : MonovaryOn xs (fun k => Real.logb 10 (e (k + 1))) (Finset.range p : Set ℕ) := by
    intro i hi j hj hlt
    rw [Finset.coe_range, Set.mem_Iio] at hi hj
    have : j < i := by
      by_contra hle
      push Not at hle
      have h1 := hanti (i + 1) (j + 1) (by omega) (by omega) (by omega)
      have h2 := Real.logb_le_logb_of_le (b := 10) (by norm_num) (hpos (j + 1) (by omega) (by omega)) h1
      exact absurd hlt (not_lt.2 h2)
    exact (xs_lt this).le
  have := hm.sum_mul_sum_le_card_mul_sum
  rw [Finset.card_range] at this
  have hp0 : (0 : ℝ) < p := by positivity
  rw [sub_nonneg, div_le_iff₀ hp0]
  linarith

end Slope

section Kloeckner
variable {p m : ℕ} {co : Coordinate}

private theorem decay_pos (hp : 2 ≤ p) {e : Fin (p + 1) → ℝ} (he : ∀ n, 0 ≤ e n) (n : ℕ) (h1 : 1 ≤ n) (_ : n ≤ p) : 0 < addModalDecay e n := by
  have ht := tiny_pos
  have hs := Finset.sum_nonneg fun n (_ : n ∈ Finset.univ) => he n
  unfold addModalDecay
  dsimp only
  rw [if_neg (by omega)]
  have h2 : 0 < (∑ k, e k + tiny) * b2 p n := mul_pos (by linarith) ((decay_table (by omega)).2 n h1)
  split_ifs with h
  · linarith [he ⟨n, h⟩]
  · linarith

private theorem energy_nonneg {s : Setup p} (hc : co.xLeft < co.xRight) (h : Built co s) (coeff : Fin (p + 1) → Value m)
    (k : Fin (m + 1)) (n : Fin (p + 1)) : 0 ≤ energy s coeff k n := mul_nonneg (weight_pos hc h n).le (sq_nonneg _)

/-- C109: On a Legendre expansion an element is reported exactly if the slope of some component is less than 3/2. -/
theorem kloeckner_modal (memory : Fin (p + 1) → Value m) (c : Cell p m) (hp : 2 ≤ p) (hp' : p ≤ 100) (hc : co.xLeft < co.xRight)
    (h : Built co c.setup) (hk : c.setup.kind = .modal) :
    (∀ k, 0 ≤ slope p (skyline p (addModalDecay (energy c.setup c.state.coeff k)))) ∧
    (kloeckner memory c ↔ ∃ k, slope p (skyline p (addModalDecay (energy c.setup c.state.coeff k))) < 3 / 2) := by
  have hnn : ∀ k, 0 ≤ slope p (skyline p (addModalDecay (energy c.setup c.state.coeff k))) := fun k =>
    slope_nonneg hp (fun n h1 hn => skyline_pos hp (decay_pos hp (energy_nonneg hc h _ k)) h1 hn)
      fun i j h1 hij hj => skyline_antitone hp (decay_pos hp (energy_nonneg hc h _ k)) h1 hij hj
  refine ⟨hnn, exists_congr fun k => ?_⟩
  have hdef : kloecknerSlope memory c.setup c.state k =
      some (slope p (skyline p (addModalDecay (energy c.setup c.state.coeff k)))) := by
    unfold kloecknerSlope
    simp only [hk]
    rw [if_pos ⟨hp, hp'⟩]
  rw [hdef]
  constructor
  · rintro ⟨s, hs, hst⟩
    cases hs
    rcases hst with h0 | h1
    · rw [h0]; norm_num
    · by_contra hge
      push Not at hge
      have : (0 : ℝ) < slope p (skyline p (addModalDecay (energy c.setup c.state.coeff k))) := by linarith
      rw [gt_iff_lt, lt_div_iff₀ this] at h1
      norm_num at h1
      linarith
  · intro hlt
    refine ⟨_, rfl, ?_⟩
    rcases (hnn k).eq_or_lt with h0 | h0
    · exact Or.inl h0.symm
    · right
      rw [gt_iff_lt, lt_div_iff₀ h0]
      norm_num
      linarith

/-- C109: If in some component the highest mode, with what is added to it, is not below any other but the mean, then the element is
reported. -/
theorem kloeckner_top (memory : Fin (p + 1) → Value m) (c : Cell p m) (hp : 2 ≤ p) (hp' : p ≤ 100) (hc : co.xLeft < co.xRight)
    (h : Built co c.setup) (hk : c.setup.kind = .modal) (k : Fin (m + 1))
    (htop : ∀ n, 1 ≤ n → n ≤ p → addModalDecay (energy c.setup c.state.coeff k) n ≤ addModalDecay (energy c.setup c.state.coeff k) p) :
    kloeckner memory c := by
  refine (kloeckner_modal memory c hp hp' hc h hk).2.2 ⟨k, ?_⟩
  set e := addModalDecay (energy c.setup c.state.coeff k)
  have he : ∀ n, 1 ≤ n → n ≤ p → 0 < e n := decay_pos hp (energy_nonneg hc h _ k)
  rw [slope_of_line hp (a := Real.logb 10 (e p)) (s := 0) fun j hj => ?_]
  · norm_num
  · rw [zero_mul, add_zero]
    congr 1
    obtain ⟨hmem, hup⟩ := skyline_spec hp he (show 1 ≤ j + 1 by omega) (show j + 1 ≤ p by omega)
    obtain ⟨l, ⟨hl1, hl2⟩, hl⟩ := hmem
    refine le_antisymm ?_ (hup ⟨p, ⟨by omega, le_rfl⟩, rfl⟩)
    rw [← hl]
    exact htop l (by omega) hl2

/-- The code violates C109 for degree 2: each element is reported, even one with a constant solution. -/
theorem kloeckner_quadratic_always (memory : Fin 3 → Value m) (c : Cell 2 m) (hc : co.xLeft < co.xRight)
    (h : Built co c.setup) (hk : c.setup.kind = .modal) : kloeckner memory c := by
  refine (kloeckner_modal memory c le_rfl (by omega) hc h hk).2.2 ⟨0, ?_⟩
  set e := addModalDecay (energy c.setup c.state.coeff 0)
  rw [slope_of_line le_rfl (a := Real.logb 10 (max |e 2| |e 1|)) (s := 0) fun j hj => ?_]
  · norm_num
  · rw [zero_mul, add_zero, skyline, if_pos (by omega)]

/-- The code violates C109 for Lagrange expansions: the answer does not depend on the solution. -/
theorem kloeckner_nodal_blind (memory : Fin (p + 1) → Value m) (c : Cell p m) (hk : c.setup.kind ≠ .modal) (st : State p (Value m)) :
    kloeckner memory c ↔ kloeckner memory { c with state := st } := by
  unfold kloeckner kloecknerSlope
  cases hk' : c.setup.kind with
  | modal => exact absurd hk' hk
  | _ => simp [hk']

private theorem gap_ge {p k : ℕ} (hk : k + 1 ≤ p) (hp : 2 ≤ p) : ((p : ℝ) - 1 - k) * (xs (p - 2) - xs (p - 1)) ≤ xs k - xs (p - 1) := by
  have hstep : ∀ j, j + 2 ≤ p → xs (p - 2) - xs (p - 1) ≤ xs j - xs (j + 1) := by
    intro j hj
    have hlog : ∀ i : ℕ, xs i - xs (i + 1) = 2 * Real.logb 10 (((i : ℝ) + 2) / ((i : ℝ) + 1)) := by
      intro i
      have h1 : (0 : ℝ) < (i : ℝ) + 1 := by positivity
      have h2 : (0 : ℝ) < (i : ℝ) + 2 := by positivity
      unfold xs
      rw [Real.logb_div h2.ne' h1.ne']
      push_cast
      rw [show (i : ℝ) + 1 + 1 = i + 2 by ring]
      ring
    have e : p - 1 = (p - 2) + 1 := by omega
    rw [e, hlog, hlog]
    refine mul_le_mul_of_nonneg_left (Real.logb_le_logb_of_le (by norm_num) (by positivity) ?_) (by norm_num)
    rw [div_le_div_iff₀ (by positivity) (by positivity)]
    have : (j : ℝ) ≤ ((p - 2 : ℕ) : ℝ) := by exact_mod_cast (show j ≤ p - 2 by omega)
    linarith
  obtain ⟨d, hd⟩ : ∃ d, k + 1 + d = p := ⟨p - (k + 1), by omega⟩
  induction d generalizing k with
  | zero =>
    have : k = p - 1 := by omega
    have e : (k : ℝ) = (p : ℝ) - 1 := by rw [this, Nat.cast_sub (by omega)]; simp
    rw [← this, e]
    simp
  | succ d ih =>
    have h1 := ih (k := k + 1) (by omega) (by omega)
    have h2 := hstep k (by omega)
    push_cast at h1
    linarith

/-- C109: An element of degree 3 or more whose solution is constant is not reported. -/
theorem kloeckner_constant_partial (memory : Fin (p + 1) → Value m) (c : Cell p m) (hp : 3 ≤ p) (hp' : p ≤ 100) (hc : co.xLeft < co.xRight)
    (h : Built co c.setup) (hk : c.setup.kind = .modal) (hconst : ∀ n, n ≠ 0 → c.state.coeff n = 0) : ¬ kloeckner memory c := by
  rw [(kloeckner_modal memory c (by omega) hp' hc h hk).2]
  rintro ⟨k, hlt⟩
  refine absurd hlt (not_lt.2 ?_)
  have ht := tiny_pos
  have hp2 : 2 ≤ p := by omega
  set E := energy c.setup c.state.coeff k with hE
  have hEn : ∀ n, 0 ≤ E n := energy_nonneg hc h _ k
  have hT : 0 < ∑ n, E n + tiny := by
    have := Finset.sum_nonneg fun n (_ : n ∈ Finset.univ) => hEn n
    linarith
  set T := ∑ n, E n + tiny with hTdef
  set S := ∑ j ∈ Finset.range p, (((j : ℝ) + 1) ^ (2 * p))⁻¹ with hS
  have hSpos : 0 < S := Finset.sum_pos (fun j _ => by positivity) (Finset.nonempty_range_iff.2 (by omega))
  have he : ∀ n, 1 ≤ n → n ≤ p → addModalDecay E n = T / S * ((n : ℝ) ^ (2 * p))⁻¹ := by
    intro n h1 hn
    unfold addModalDecay
    dsimp only
    rw [if_neg (by omega), dif_pos (by omega)]
    have : E ⟨n, by omega⟩ = 0 := by
      rw [hE, energy, hconst _ (by intro h0; have := congrArg Fin.val h0; simp at this; omega)]
      simp
    rw [this, zero_add, b2, ← hTdef, ← hS]
    field_simp
  have hdpos := decay_pos hp2 hEn
  -- the entries after the skyline
  have hsky : ∀ j < p, skyline p (addModalDecay E) (j + 1) = T / S * (((min j (p - 2) : ℕ) + 1 : ℝ) ^ (2 * p))⁻¹ := by
    intro j hj
    obtain ⟨⟨l, ⟨hl1, hl2⟩, hl⟩, hup⟩ := skyline_spec hp2 hdpos (show 1 ≤ j + 1 by omega) (show j + 1 ≤ p by omega)
    have hmin : min (j + 1) (p - 1) = min j (p - 2) + 1 := by omega
    rw [hmin] at hl1 hup
    have hval := he (min j (p - 2) + 1) (by omega) (by omega)
    push_cast at hval
    push_cast
    rw [← hval]
    refine le_antisymm ?_ (hup ⟨_, ⟨le_rfl, by omega⟩, rfl⟩)
    rw [← hl, he l (by omega) hl2, he _ (by omega) (by omega)]
    refine mul_le_mul_of_nonneg_left ?_ (by positivity)
    refine inv_anti₀ (by positivity) ?_
    exact pow_le_pow_left₀ (by positivity) (by exact_mod_cast hl1) _
  set a := Real.logb 10 (T / S) with ha
  have hy : ∀ j < p, Real.logb 10 (skyline p (addModalDecay E) (j + 1)) = a + p * xs (min j (p - 2)) := by
    intro j hj
    have hpos : (0 : ℝ) < ((min j (p - 2) : ℕ) + 1 : ℝ) := by positivity
    rw [hsky j hj, Real.logb_mul (by positivity) (by positivity), Real.logb_inv, Real.logb_pow]
    unfold xs
    push_cast
    ring
  set d := xs (p - 2) - xs (p - 1) with hd
  have hdp : 0 < d := by have := xs_lt (show p - 2 < p - 1 by omega); linarith
  set X := ∑ j ∈ Finset.range p, xs j with hX
  have hp0 : (0 : ℝ) < p := by positivity
  have hD := spread_pos hp2
  -- the slope
  have hy' : ∀ j ∈ Finset.range p, Real.logb 10 (skyline p (addModalDecay E) (j + 1)) = a + p * xs j + if j = p - 1 then p * d else 0 := by
    intro j hj
    have hj' := Finset.mem_range.1 hj
    rw [hy j hj']
    split_ifs with e
    · rw [show min j (p - 2) = p - 2 by omega, e, hd]; ring
    · rw [show min j (p - 2) = j by omega, add_zero]
  have hmem : p - 1 ∈ Finset.range p := Finset.mem_range.2 (by omega)
  have hsum1 : ∑ j ∈ Finset.range p, Real.logb 10 (skyline p (addModalDecay E) (j + 1)) = p * a + p * X + p * d := by
    rw [Finset.sum_congr rfl hy', Finset.sum_add_distrib, Finset.sum_add_distrib, Finset.sum_ite_eq' , if_pos hmem, ← Finset.mul_sum,
      Finset.sum_const, Finset.card_range, nsmul_eq_mul]
  have hsum2 : ∑ j ∈ Finset.range p, xs j * Real.logb 10 (skyline p (addModalDecay E) (j + 1)) =
      a * X + p * (∑ j ∈ Finset.range p, xs j * xs j) + p * d * xs (p - 1) := by
    have e1 : ∀ j ∈ Finset.range p, xs j * Real.logb 10 (skyline p (addModalDecay E) (j + 1)) =
        a * xs j + p * (xs j * xs j) + if j = p - 1 then p * d * xs (p - 1) else 0 := by
      intro j hj
      rw [hy' j hj]
      split_ifs with e
      · rw [e]; ring
      · ring
    rw [Finset.sum_congr rfl e1, Finset.sum_add_distrib, Finset.sum_add_distrib, Finset.sum_ite_eq', if_pos hmem, ← Finset.mul_sum,
      ← Finset.mul_sum]
  set μ := X / p with hμ
  have hXμ : X = p * μ := by rw [hμ]; field_simp
  have hslope : slope p (skyline p (addModalDecay E)) = p - p * d * (μ - xs (p - 1)) / spread p := by
    rw [slope_eq (by omega), hsum1, hsum2, ← hX, eq_sub_iff_add_eq, ← add_div, div_eq_iff hD.ne']
    have e2 : ∑ j ∈ Finset.range p, xs j * xs j = spread p + X * X / p := by rw [spread]; ring
    rw [e2, hXμ]
    field_simp
    ring
  rcases Nat.eq_or_lt_of_le hp with h3 | h4
  · -- degree 3
    subst h3
    have hlog : Real.logb 10 3 ≤ 2 * Real.logb 10 2 := by
      rw [show 2 * Real.logb 10 2 = Real.logb 10 (2 ^ 2) by rw [Real.logb_pow]; norm_num]
      exact Real.logb_le_logb_of_le (by norm_num) (by norm_num) (by norm_num)
    have hb0 : 0 < Real.logb 10 3 := Real.logb_pos (by norm_num) (by norm_num)
    have x1 : xs 1 = -2 * Real.logb 10 2 := by unfold xs; norm_num
    have x2 : xs 2 = -2 * Real.logb 10 3 := by unfold xs; norm_num
    have hX3 : X = -2 * Real.logb 10 2 - 2 * Real.logb 10 3 := by
      rw [hX]; simp [Finset.sum_range_succ, xs_zero, x1, x2]; ring
    have hsp : spread 3 = 8 / 3 * (Real.logb 10 2 ^ 2 + Real.logb 10 3 ^ 2 - Real.logb 10 2 * Real.logb 10 3) := by
      rw [spread, ← hX, hX3]
      simp [Finset.sum_range_succ, xs_zero, x1, x2]
      ring
    have hd3 : d = 2 * Real.logb 10 3 - 2 * Real.logb 10 2 := by rw [hd]; norm_num [x1, x2]; ring
    have hμ3 : μ = -2 / 3 * (Real.logb 10 2 + Real.logb 10 3) := by rw [hμ, hX3]; push_cast; ring
    rw [hslope, le_sub_comm, div_le_iff₀ hD, hsp, hd3, hμ3, show 3 - 1 = 2 from rfl, x2]
    push_cast
    nlinarith
  · -- degree 4 or more
    set Δ := μ - xs (p - 1) with hΔ
    have hpΔ : p * Δ = ∑ j ∈ Finset.range p, (xs j - xs (p - 1)) := by
      rw [Finset.sum_sub_distrib, Finset.sum_const, Finset.card_range, nsmul_eq_mul, ← hX, hXμ, hΔ]; ring
    have hΔge : d * (p - 1) / 2 ≤ Δ := by
      have h1 : ∑ j ∈ Finset.range p, ((p : ℝ) - 1 - j) * d ≤ p * Δ := by
        rw [hpΔ]
        exact Finset.sum_le_sum fun j hj => gap_ge (by have := Finset.mem_range.1 hj; omega) hp2
      have h2 : ∑ j ∈ Finset.range p, ((p : ℝ) - 1 - j) * d = d * (p * (p - 1) / 2) := by
        rw [← Finset.sum_mul, Finset.sum_sub_distrib, Finset.sum_const, Finset.card_range, nsmul_eq_mul]
        have h3 := Finset.sum_range_id_mul_two p
        have h4 : (∑ j ∈ Finset.range p, (j : ℝ)) * 2 = p * (p - 1) := by
          have := congrArg (Nat.cast (R := ℝ)) h3
          push_cast at this
          rw [this, Nat.cast_sub (by omega)]
          simp
        linear_combination (-d / 2) * h4
      rw [h2] at h1
      have : p * (d * (p - 1) / 2) ≤ p * Δ := by linarith
      exact le_of_mul_le_mul_left this hp0
    have hp1 : (1 : ℝ) ≤ (p : ℝ) - 1 := by
      have : (2 : ℝ) ≤ p := by exact_mod_cast hp2
      linarith
    have hΔ0 : 0 < Δ := lt_of_lt_of_le (by positivity) hΔge
    have hDge : p * Δ ^ 2 ≤ (p - 1) * spread p := by
      rw [spread_eq (by omega) hμ]
      obtain ⟨q, hq⟩ : ∃ q, p = q + 1 := ⟨p - 1, by omega⟩
      have hlast : ∑ j ∈ Finset.range p, (xs j - μ) ^ 2 = ∑ j ∈ Finset.range (p - 1), (xs j - μ) ^ 2 + Δ ^ 2 := by
        rw [hΔ, hq, Finset.sum_range_succ, Nat.add_sub_cancel]; ring
      have hzero : ∑ j ∈ Finset.range (p - 1), (xs j - μ) = Δ := by
        have h1 : ∑ j ∈ Finset.range p, (xs j - μ) = 0 := by
          rw [Finset.sum_sub_distrib, Finset.sum_const, Finset.card_range, nsmul_eq_mul, ← hX, hXμ]; ring
        have h2 : ∑ j ∈ Finset.range p, (xs j - μ) = ∑ j ∈ Finset.range (p - 1), (xs j - μ) + (xs (p - 1) - μ) := by
          rw [hq, Finset.sum_range_succ, Nat.add_sub_cancel]
        rw [hΔ]; linarith
      have hcs := sq_sum_le_card_mul_sum_sq (s := Finset.range (p - 1)) (f := fun j => xs j - μ)
      rw [hzero, Finset.card_range, Nat.cast_sub (by omega), Nat.cast_one] at hcs
      rw [hlast]
      nlinarith
    have hfin : p * d * Δ ≤ 2 * spread p := by
      have h1 : (p - 1) * (p * d * Δ) ≤ (p - 1) * (2 * spread p) := by
        have : d * (p - 1) ≤ 2 * Δ := by linarith
        have h2 : p * Δ * (d * (p - 1)) ≤ p * Δ * (2 * Δ) := mul_le_mul_of_nonneg_left this (by positivity)
        nlinarith
      exact le_of_mul_le_mul_left h1 (by linarith)
    have h4' : (4 : ℝ) ≤ p := by exact_mod_cast h4
    rw [hslope, le_sub_comm, div_le_iff₀ hD]
    nlinarith

/-- The constant 1 in an element of degree 2 and in one of degree 3. -/
example (memory : (p : ℕ) → Fin (p + 1) → Value 0) : ∃ s : (p : ℕ) → Setup p, (∀ p, Built (.linear 0 1) (s p)) ∧
    let c : (p : ℕ) → Cell p 0 := fun p => ⟨s p, setCoeff (s p) fun n => if n = 0 then 1 else 0, none, none⟩
    (∀ p x, (s p).value (c p).state x = 1) ∧ kloeckner (memory 2) (c 2) ∧ ¬ kloeckner (memory 3) (c 3) := by
  have hc : (Coordinate.linear 0 1).xLeft < (Coordinate.linear 0 1).xRight := by simp [Coordinate.xLeft, Coordinate.xRight]
  obtain ⟨r, hr⟩ := roots_exist
  choose s hs using fun p => (constructors hc (hr p)).2.2.1
  have hb : ∀ p, Built (.linear 0 1) (s p) := fun p => .modal _ (hr p) (hs p)
  have hk : ∀ p, (s p).kind = .modal := fun p => (modal_sane hc (hs p)).2.1
  refine ⟨s, hb, fun p x => ?_, kloeckner_quadratic_always _ _ hc (hb 2) (hk 2), kloeckner_constant_partial _ _ le_rfl (by omega) hc (hb 3) (hk 3) ?_⟩
  · rw [value_eq hc (hb p) (.coeff _ rfl), Finset.sum_eq_single 0]
    · rw [(modal_sane hc (hs p)).2.2.2.2.2]
      simp [setCoeff, Vincent.legendre]
    · intro n _ hn; simp [setCoeff, hn]
    · simp
  · intro n hn; simp [setCoeff, hn]

end Kloeckner

end MiniCFD.PyDetector
