import Verif.Model.PyDetector
import Verif.Lemmas.PyLimiter
import Verif.Props.PyExpansion

namespace MiniCFD.PyDetector

open MiniCFD.PyQuad MiniCFD.PyExpansion MiniCFD.PyLimiter

theorem tiny_pos : 0 < tiny := by unfold tiny; norm_num

section Loop
variable {n : ℕ}

/-- Loops that collect the elements with some property. -/
theorem collect_eq {α : Type*} (q : α → Prop) [DecidablePred q] (l acc : List α) :
    l.foldl (fun is i => if q i then is ++ [i] else is) acc = acc ++ l.filter fun i => decide (q i) := by
  induction l generalizing acc with
  | nil => simp
  | cons a l ih =>
    rw [List.foldl_cons, ih]
    by_cases h : q a
    · simp [h]
    · simp [h]

theorem collect_spec (q : Fin n → Prop) [DecidablePred q] :
    (∀ i, i ∈ (List.finRange n).foldl (fun is i => if q i then is ++ [i] else is) [] ↔ q i) ∧
    ((List.finRange n).foldl (fun is i => if q i then is ++ [i] else is) []).Pairwise (· < ·) := by
  rw [collect_eq, List.nil_append]
  exact ⟨fun i => by simp, (List.pairwise_lt_finRange n).filter _⟩

end Loop

section Ratio
variable {m : ℕ}

theorem scalar_gt {d e : Value m} {a : ℝ} : scalarSmoothness d e > a ↔ ∃ k, d k / e k > a := by
  unfold scalarSmoothness
  simp only [gt_iff_lt, Finset.lt_sup'_iff, Finset.mem_univ, true_and]

theorem scalar_le {d e : Value m} {a : ℝ} : scalarSmoothness d e ≤ a ↔ ∀ k, d k / e k ≤ a := by
  unfold scalarSmoothness
  simp only [Finset.sup'_le_iff, Finset.mem_univ, true_implies]

theorem scalar_nonneg {d e : Value m} (hd : ∀ k, 0 ≤ d k) (he : ∀ k, 0 ≤ e k) : 0 ≤ scalarSmoothness d e := by
  unfold scalarSmoothness
  exact (div_nonneg (hd 0) (he 0)).trans (Finset.le_sup' (fun k => d k / e k) (Finset.mem_univ 0))

theorem scalar_zero {d e : Value m} (hd : ∀ k, 0 ≤ d k) (he : ∀ k, 0 < e k) : scalarSmoothness d e = 0 ↔ ∀ k, d k = 0 := by
  constructor
  · intro h k
    have := scalar_le.1 h.le k
    have h2 := div_nonneg (hd k) (he k).le
    have : d k / e k = 0 := le_antisymm this h2
    rcases div_eq_zero_iff.1 this with h' | h'
    · exact h'
    · exact absurd h' (he k).ne'
  · intro h
    refine le_antisymm (scalar_le.2 fun k => by rw [h k, zero_div]) (scalar_nonneg hd fun k => (he k).le)

end Ratio

section Faces
variable {p m : ℕ} {c : Coordinate}

theorem own_boundary (hc : c.xLeft < c.xRight) {s : Setup p} (h : Built c s) {st : State p (Value m)} (hr : Reached s st) :
    boundaryDerivatives s st 0 true = s.value st c.xLeft ∧ boundaryDerivatives s st 0 false = s.value st c.xRight := by
  have := (value_derivatives hc h hr 0).2 0
  rw [iteratedDeriv_zero] at this
  exact ⟨this.2.2.1, this.2.2.2.1⟩

/-- `r ^ (2 / (p + 1))` is where the factor of the jump detectors reaches `r`. -/
theorem factor_lt (p : ℕ) {h r : ℝ} (hh : 0 < h) (hr : 0 < r) (hlt : h < r ^ (2 / ((p : ℝ) + 1))) : h ^ (((p : ℝ) + 1) / 2) < r := by
  have hp : (0 : ℝ) < (p : ℝ) + 1 := by positivity
  calc h ^ (((p : ℝ) + 1) / 2) < (r ^ (2 / ((p : ℝ) + 1))) ^ (((p : ℝ) + 1) / 2) :=
        Real.rpow_lt_rpow hh.le hlt (by positivity)
    _ = r := by
        rw [← Real.rpow_mul hr.le, div_mul_div_comm, mul_comm ((2 : ℝ)), div_self (by positivity), Real.rpow_one]

theorem factor_sq (p : ℕ) {h : ℝ} (hh : 0 < h) : h ^ (((p : ℝ) + 1) / 2) * h ^ (((p : ℝ) + 1) / 2) = h ^ (p + 1) := by
  rw [← Real.rpow_add hh, ← Real.rpow_natCast]
  congr 1
  push_cast
  ring

end Faces

section Constant
variable {p m : ℕ}

theorem constant_value (s : Setup p) (A : Value m) (x : ℝ) :
    s.value (setTaylor s fun l => if l = 0 then A else 0) x = A := by
  simp only [Setup.value, taylorValue, setTaylor]
  rw [Finset.sum_eq_single 0]
  · simp [taylorValues_eq]
  · intro l _ hl; simp [hl]
  · simp

end Constant

end MiniCFD.PyDetector
